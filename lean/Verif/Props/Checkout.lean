import Verif.Props.Walk
import Verif.Lemmas.Checkout
/-! Properties C36 and C37 (checkout). -/
namespace Snap.Props
open Snap
set_option linter.unusedSectionVars false
variable [Serde] [LawfulSerde]

theorem each_removeExtra {fs fs' : Fs} {path : Path} {l : List Bytes} (hl : ∀ n ∈ l, okName n) (hw : AtWf fs.at) (hn : AtNames fs.at)
    (h : SM.each (removeExtra path) l fs = (.ok (), fs')) :
    fs'.cwd = fs.cwd ∧ AtWf fs'.at ∧ AtNames fs'.at ∧ (∀ q, fs'.at q = fs.at q ∨ fs'.at q = none) ∧
      (∀ q, (∀ n ∈ l, ¬ (loc fs.cwd path ++ [n]) <+: q) → fs'.at q = fs.at q) ∧
      ∀ n ∈ l, fs'.at (loc fs.cwd path ++ [n]) = none ∨ fs'.at (loc fs.cwd path ++ [n]) = some .special := by
  induction l generalizing fs with
  | nil =>
    have h' : (Res.ok (), fs) = (.ok (), fs') := h
    simp at h'
    subst h'
    exact ⟨rfl, hw, hn, fun _ => Or.inl rfl, fun _ _ => rfl, by simp⟩
  | cons n l ih =>
    obtain ⟨_, fs1, h1, h2⟩ := bind_ok (x := removeExtra path n) (f := fun _ => SM.each (removeExtra path) l) h
    obtain ⟨_, c1, hc⟩ := removeExtra_ok (hl n (by simp)) h1
    have hstep : AtWf fs1.at ∧ AtNames fs1.at ∧ (∀ q, fs1.at q = fs.at q ∨ fs1.at q = none) ∧ (∀ q, ¬ (loc fs.cwd path ++ [n]) <+: q → fs1.at q = fs.at q) ∧
        (fs1.at (loc fs.cwd path ++ [n]) = none ∨ fs1.at (loc fs.cwd path ++ [n]) = some .special) := by
      rcases hc with ⟨ha, hk⟩ | ⟨⟨c, md, ha⟩, hk⟩ | ⟨ha, hk⟩
      · rw [hk]
        refine ⟨atWf_prune hw _, atNames_keep hn _, fun q => ?_, fun q hq => ?_, Or.inl ?_⟩
        · unfold keep; split <;> simp
        · unfold keep
          rw [if_pos]
          simpa [Bool.eq_false_iff] using hq
        · unfold keep
          rw [if_neg]
          simp
      · rw [hk]
        refine ⟨atWf_removeFile hw (by rw [ha]; simp), atNames_keep hn _, fun q => ?_, fun q hq => ?_, Or.inl ?_⟩
        · unfold keep; split <;> simp
        · unfold keep
          rw [if_pos]
          simp only [decide_eq_true_eq]
          rintro rfl
          exact hq (List.prefix_refl _)
        · simp [keep]
      · rw [hk]
        exact ⟨hw, hn, fun _ => Or.inl rfl, fun _ _ => rfl, Or.inr ha⟩
    obtain ⟨s1, s2, s3, s4, s5⟩ := hstep
    obtain ⟨g1, g2, g3, g4, g5, g6⟩ := ih (fs := fs1) (fun m hm => hl m (by simp [hm])) s1 s2 h2
    rw [c1] at g1 g5 g6
    refine ⟨g1, g2, g3, fun q => ?_, fun q hq => ?_, fun m hm => ?_⟩
    · rcases g4 q with h | h
      · rw [h]; exact s3 q
      · exact Or.inr h
    · rw [g5 q fun m hm => hq m (by simp [hm]), s4 q (hq n (by simp))]
    · rcases List.mem_cons.mp hm with rfl | hm
      · rcases g4 (loc fs.cwd path ++ [m]) with h | h
        · rw [h]; exact s5
        · exact Or.inl h
      · exact g6 m hm

theorem acceptedNames_ok {fs : Fs} {filter : Filter} {path : Path} {l r : List Bytes} (h : acceptedNames fs filter path l = .ok r) :
    ∀ n, n ∈ r ↔ n ∈ l ∧ filter fs (Path.join path n) = .ok true := by
  induction l generalizing r with
  | nil => simp [acceptedNames] at h; subst h; simp
  | cons x l ih =>
    unfold acceptedNames at h
    obtain ⟨b, h1, h2⟩ := Res.bind_eq_ok h
    obtain ⟨r', h3, h4⟩ := Res.bind_eq_ok h2
    have h5 : Res.ok (if b = true then x :: r' else r') = .ok r := h4
    simp at h5
    subst h5
    intro n
    have := ih h3 n
    cases b with
    | true =>
      simp only [if_true, List.mem_cons, this]
      constructor
      · rintro (rfl | ⟨h, h'⟩)
        · exact ⟨Or.inl rfl, h1⟩
        · exact ⟨Or.inr h, h'⟩
      · rintro ⟨rfl | h, h'⟩
        · exact Or.inl rfl
        · exact Or.inr ⟨h, h'⟩
    | false =>
      simp only [Bool.false_eq_true, if_false, List.mem_cons, this]
      constructor
      · rintro ⟨h, h'⟩; exact ⟨Or.inr h, h'⟩
      · rintro ⟨rfl | h, h'⟩
        · rw [h1] at h'; simp at h'
        · exact ⟨h, h'⟩

/-- The tree at `L` is the stored one: every node is there with its contents, and no directory has other accepted files or directories. -/
structure Match (a : AtFn) (acc : Path → Bool) (path : Path) (L : List Bytes) (ns : List Node) : Prop where
  nodes : ∀ x ∈ ns, match x.content with | some c => ∃ md, a (L ++ x.rel) = some (.file c md) | none => a (L ++ x.rel) = some .dir
  only : ∀ x ∈ ns, x.content = none → ∀ m e, a (L ++ x.rel ++ [m]) = some e → (e = .dir ∨ ∃ c md, e = .file c md) → acc (joins path (x.rel ++ [m])) = true →
    ∃ y ∈ ns, y.rel = x.rel ++ [m]

theorem Match.congr {a b : AtFn} {acc : Path → Bool} {path : Path} {L : List Bytes} {ns : List Node} (h : Match a acc path L ns) (hab : ∀ q, L <+: q → b q = a q) :
    Match b acc path L ns := by
  refine ⟨fun x hx => ?_, fun x hx hc m e he => ?_⟩
  · rw [hab _ (List.prefix_append _ _)]; exact h.nodes x hx
  · rw [hab _ (by rw [List.append_assoc]; exact List.prefix_append _ _)] at he
    exact h.only x hx hc m e he

theorem stored_root {db : Db} {n : Nat} {k : Key} {ns : List KNode} (hs : Snap.Stored db n k ns) : ∃ x ∈ ns, x.node.rel = [] := by
  cases n with
  | zero => exact hs.elim
  | succ n =>
    rcases hs with ⟨_, _, _, _, _, _, _, _, rfl⟩ | ⟨_, _, _, rfl, _⟩
    · exact ⟨_, List.mem_cons_self, rfl⟩
    · exact ⟨_, List.mem_cons_self, rfl⟩

theorem mem_under {r : KNode} {es : List (Bytes × Key × List KNode)} {e : Bytes × Key × List KNode} (he : e ∈ es) {x : KNode} (hx : x ∈ e.2.2) :
    x.under e.1 ∈ r :: es.flatMap fun e => e.2.2.map (KNode.under e.1) :=
  List.mem_cons_of_mem _ (List.mem_flatMap.mpr ⟨e, he, List.mem_map_of_mem hx⟩)

/-- The names in a stored directory without repeated paths are different. -/
theorem stored_names_nodup {db : Db} {n : Nat} {es : List (Bytes × Key × List KNode)} (h3 : ∀ e ∈ es, Snap.Stored db n e.2.1 e.2.2)
    (hnd : ((es.flatMap fun e => e.2.2.map (KNode.under e.1)).map fun x => x.node.rel).Nodup) : (es.map (·.1)).Nodup ∧ ∀ e ∈ es, (e.2.2.map fun x => x.node.rel).Nodup := by
  induction es with
  | nil => simp
  | cons e es ih =>
    simp only [List.flatMap_cons, List.map_append] at hnd
    obtain ⟨h1, h2, hdis⟩ := List.nodup_append.mp hnd
    obtain ⟨i1, i2⟩ := ih (fun x hx => h3 x (by simp [hx])) h2
    refine ⟨?_, ?_⟩
    · rw [List.map_cons, List.nodup_cons]
      refine ⟨?_, i1⟩
      intro hm
      obtain ⟨e', he', heq⟩ := List.mem_map.mp hm
      obtain ⟨x, hx, hxr⟩ := stored_root (h3 e (by simp))
      obtain ⟨y, hy, hyr⟩ := stored_root (h3 e' (by simp [he']))
      refine hdis [e.1] ?_ [e.1] ?_ rfl
      · exact List.mem_map.mpr ⟨x.under e.1, List.mem_map_of_mem hx, by simp [hxr]⟩
      · exact List.mem_map.mpr ⟨y.under e'.1, List.mem_flatMap.mpr ⟨e', he', List.mem_map_of_mem hy⟩, by simp [hyr, heq]⟩
    · intro x hx
      rcases List.mem_cons.mp hx with rfl | hx
      · rw [List.map_map] at h1
        have : (fun y : KNode => y.node.rel) ∘ KNode.under x.1 = (fun l => x.1 :: l) ∘ fun y : KNode => y.node.rel := by funext y; rfl
        rw [this, ← List.map_map] at h1
        unfold List.Nodup at h1 ⊢
        rw [List.pairwise_map] at h1
        exact h1.imp fun hne he => hne (by rw [he])
      · exact i2 x hx

theorem checkout_file {db : Db} {filter : Filter} {iter : List Bytes → List Bytes} {fuel : Nat} {k : Key} {path : Path} {sz nm ck c m}
    (h1 : getItem db k = .ok ⟨sz, .file, nm, [ck]⟩) (hd : Den db m ck c) (hf : m < fuel) :
    ∃ ls : List Bytes, ls.flatten = c ∧ checkoutFsItem db filter iter (fuel + 1) k path = (do
      let f ← Fs.create path
      if Path.startsWith path sGuard then SM.each (Fs.writeAll f) ls else SM.panic) := by
  obtain ⟨ls, hls, hrd⟩ := hd.leaves
  refine ⟨ls, hls, ?_⟩
  funext fs
  conv => lhs; unfold checkoutFsItem
  simp only [SM.bind_apply, SM.lift_apply, h1]
  cases Fs.create path fs with
  | mk r fs1 =>
    cases r with
    | ok f =>
      simp only
      split
      · rw [hrd _ _ fuel hf]
      · rfl
    | _ => rfl

theorem checkout_dir {db : Db} {filter : Filter} {iter : List Bytes → List Bytes} {fuel : Nat} {k : Key} {path : Path} {sz : Nat} {es : List (Bytes × Key × List KNode)}
    (h1 : getItem db k = .ok ⟨sz, .dir, es.map (·.1), es.map (·.2.1)⟩) :
    checkoutFsItem db filter iter (fuel + 1) k path = (do
      let all ← SM.read (fun fs => fs.readDir path)
      let mine ← SM.read (fun fs => acceptedNames fs filter path all)
      SM.each (removeExtra path) (iter (mine.filter fun x => !((es.map (·.1)).any fun y => Path.comps y == Path.comps x)))
      SM.each (fun (e : Bytes × Key × List KNode) => do
        Fs.createDirAll path
        checkoutFsItem db filter iter fuel e.2.1 (Path.join path e.1)) es) := by
  funext fs
  conv => lhs; unfold checkoutFsItem
  simp only [SM.bind_apply, SM.lift_apply, h1]
  have hz : (es.map (·.2.1)).zip (es.map (·.1)) = es.map fun e => (e.2.1, e.1) := zip_map _ _ _
  rw [hz]
  simp only [each_map]

theorem any_comps {names : List Bytes} (hn : ∀ y ∈ names, okComp y) {x : Bytes} (hx : okComp x) : (names.any fun y => Path.comps y == Path.comps x) = true ↔ x ∈ names := by
  simp only [List.any_eq_true, beq_iff_eq]
  constructor
  · rintro ⟨y, hy, h⟩
    rw [comps_ok (hn y hy), comps_ok hx] at h
    simp at h
    exact h ▸ hy
  · intro h; exact ⟨x, h, rfl⟩

/-- What a successful checkout has done. -/
theorem checkout_ok {db : Db} {n : Nat} {k : Key} {ns : List KNode} (hs : Snap.Stored db n k ns) (ho : ∀ x ∈ ns, ∀ m ∈ x.node.rel, okName m)
    (hnd : (ns.map fun x => x.node.rel).Nodup) {fuel : Nat} (hf : n + 6 ≤ fuel) {filter : Filter} {iter : List Bytes → List Bytes} {path : Path} (hcl : Clean path)
    (hiter : ∀ l x, x ∈ iter l ↔ x ∈ l) {acc : Path → Bool} {fs fs' : Fs} (hacc : ∀ f p b, f.cwd = fs.cwd → filter f p = .ok b → b = acc p)
    (hw : AtWf fs.at) (hn : AtNames fs.at) (h : checkoutFsItem db filter iter fuel k path fs = (.ok (), fs')) :
    fs'.cwd = fs.cwd ∧ AtWf fs'.at ∧ AtNames fs'.at ∧ (∀ q, ¬ loc fs.cwd path <+: q → fs'.at q = fs.at q) ∧
      Match fs'.at acc path (loc fs.cwd path) (ns.map (·.node)) := by
  induction n generalizing k ns fuel path fs fs' with
  | zero => exact hs.elim
  | succ n ih =>
    obtain ⟨fuel, rfl⟩ : ∃ f, fuel = f + 1 := ⟨fuel - 1, by omega⟩
    rcases hs with ⟨sz, nm, ck, c, m, h1, h2, h3, rfl⟩ | ⟨sz, es, h1, rfl, h3⟩
    · obtain ⟨ls, rfl, hrun⟩ := checkout_file (filter := filter) (iter := iter) (path := path) h1 h3 (fuel := fuel) (by omega)
      rw [hrun] at h
      obtain ⟨f, fs1, g1, g2⟩ := bind_ok h
      obtain ⟨rfl, c1, hfile, ⟨md, a1⟩, d, nn, hq, hnn, hd⟩ := create_ok hcl g1
      split at g2
      · obtain ⟨c2, a2⟩ := each_writeAll_ok (c := []) (md := md) (by rw [a1]; simp [upd]) g2
        have ha : fs'.at = upd fs.at (loc fs.cwd path) (.file ls.flatten md) := by
          rw [a2, a1]; funext x; unfold upd; split <;> simp
        refine ⟨c2.trans c1, ?_, ?_, ?_, ?_⟩
        · rw [ha, hq]; exact atWf_create hw hd (by rw [← hq]; exact hfile) _ _
        · rw [ha, hq]; exact atNames_create hn hnn _
        · intro q hnq
          rw [ha]
          unfold upd
          rw [if_neg]
          rintro rfl
          exact hnq (List.prefix_refl _)
        · rw [ha]
          refine ⟨?_, ?_⟩
          · intro x hx
            simp at hx
            subst hx
            exact ⟨md, by simp [upd]⟩
          · intro x hx hc
            simp at hx
            subst hx
            simp at hc
      · simp [SM.panic] at g2
    · rw [checkout_dir h1] at h
      obtain ⟨all, fsA, g1, h⟩ := bind_ok h
      have g1' : (fs.readDir path, fs) = (.ok all, fsA) := g1
      simp at g1'
      obtain ⟨g1', rfl⟩ := g1'
      obtain ⟨mine, fsA, g2, h⟩ := bind_ok h
      have g2' : (acceptedNames fs filter path all, fs) = (.ok mine, fsA) := g2
      simp at g2'
      obtain ⟨g2', rfl⟩ := g2'
      obtain ⟨_, fs1, g3, g4⟩ := bind_ok h
      obtain ⟨hl, hd, rfl⟩ := readDir_ok g1'
      have hmine := acceptedNames_ok g2'
      have heok : ∀ e ∈ es, okName e.1 := by
        intro e he
        obtain ⟨x, hx, hxr⟩ := stored_root (h3 e he)
        exact ho (x.under e.1) (mem_under he hx) e.1 (by simp)
      simp only [List.map_cons, List.nodup_cons] at hnd
      obtain ⟨hnames, hsub⟩ := stored_names_nodup h3 hnd.2
      have hmok : ∀ x ∈ mine, okName x := fun x hx => by
        have := mem_names.mp ((hmine x).mp hx).1
        exact hn _ _ this
      obtain ⟨r1, r2, r3, r4, r5, r6⟩ := each_removeExtra (by
        intro x hx
        rw [hiter] at hx
        exact hmok x (List.mem_filter.mp hx).1) hw hn g3
      -- the loop over the stored children
      have loop : ∀ (es : List (Bytes × Key × List KNode)) (fs1 : Fs), (∀ e ∈ es, Snap.Stored db n e.2.1 e.2.2) → (∀ e ∈ es, okName e.1) → (∀ e ∈ es, ∀ x ∈ e.2.2, ∀ m ∈ x.node.rel, okName m) →
          (es.map (·.1)).Nodup → (∀ e ∈ es, (e.2.2.map fun x => x.node.rel).Nodup) → fs1.cwd = fs.cwd → AtWf fs1.at → AtNames fs1.at → fs1.at (loc fs.cwd path) = some .dir →
          SM.each (fun (e : Bytes × Key × List KNode) => do
            Fs.createDirAll path
            checkoutFsItem db filter iter fuel e.2.1 (Path.join path e.1)) es fs1 = (.ok (), fs') →
          fs'.cwd = fs.cwd ∧ AtWf fs'.at ∧ AtNames fs'.at ∧ (∀ q, (∀ e ∈ es, ¬ (loc fs.cwd path ++ [e.1]) <+: q) → fs'.at q = fs1.at q) ∧
            ∀ e ∈ es, Match fs'.at acc (Path.join path e.1) (loc fs.cwd path ++ [e.1]) (e.2.2.map (·.node)) := by
        intro es
        induction es with
        | nil =>
          intro fs1 _ _ _ _ _ c w nn hd h
          have h' : (Res.ok (), fs1) = (.ok (), fs') := h
          simp at h'
          subst h'
          exact ⟨c, w, nn, fun _ _ => rfl, by simp⟩
        | cons e es ihes =>
          intro fs1 q1 q2 q3 q4 q5 c w nn hd h
          obtain ⟨_, fs3, k1, k2⟩ := bind_ok (x := do
            Fs.createDirAll path
            checkoutFsItem db filter iter fuel e.2.1 (Path.join path e.1)) (f := fun _ => SM.each (fun (e : Bytes × Key × List KNode) => do
            Fs.createDirAll path
            checkoutFsItem db filter iter fuel e.2.1 (Path.join path e.1)) es) h
          obtain ⟨_, fs2, k3, k4⟩ := bind_ok k1
          have hsame := createDirAll_same (fs := fs1) w hcl.2 (by rw [c]; exact hd)
          rw [k3] at hsame
          obtain ⟨sa, sc⟩ := hsame
          have heo := q2 e (by simp)
          have hloc : loc fs2.cwd (Path.join path e.1) = loc fs.cwd path ++ [e.1] := by rw [sc, c, loc_join _ _ heo]
          obtain ⟨i1, i2, i3, i4, i5⟩ := ih (q1 e (by simp)) (q3 e (by simp)) (q5 e (by simp)) (fuel := fuel) (by omega)
            (path := Path.join path e.1) (clean_joins (ns := [e.1]) hcl (by simpa using heo)) (fs := fs2)
            (fun f p b hf => hacc f p b (by rw [hf, sc, c])) (by rw [sa]; exact w) (by rw [sa]; exact nn) k4
          rw [hloc] at i4 i5
          rw [sc, c] at i1
          rw [sa] at i4
          simp only [List.map_cons, List.nodup_cons] at q4
          obtain ⟨j1, j2, j3, j4, j5⟩ := ihes fs3 (fun x hx => q1 x (by simp [hx])) (fun x hx => q2 x (by simp [hx])) (fun x hx => q3 x (by simp [hx])) q4.2
            (fun x hx => q5 x (by simp [hx])) i1 i2 i3 (by
              rw [i4 _ (by intro hp; have := hp.length_le; simp at this; omega)]; exact hd) k2
          refine ⟨j1, j2, j3, fun q hq => ?_, fun x hx => ?_⟩
          · rw [j4 q fun x hx => hq x (by simp [hx]), i4 q (hq e (by simp))]
          · rcases List.mem_cons.mp hx with rfl | hx
            · refine i5.congr fun q hq => j4 q fun y hy hp => ?_
              have : x.1 = y.1 := by
                obtain ⟨t, rfl⟩ := hq
                rw [List.append_assoc] at hp
                have := (List.prefix_append_right_inj _).mp hp
                obtain ⟨u, hu⟩ := this
                simp at hu
                exact hu.1.symm
              exact q4.1 (this ▸ List.mem_map_of_mem hy)
            · exact j5 x hx
      have hd1 : fs1.at (loc fs.cwd path) = some .dir := by
        rw [r5 _ (by intro x _ hp; have := hp.length_le; simp at this; omega)]; exact hd
      obtain ⟨l1, l2, l3, l4, l5⟩ := loop es fs1 h3 heok (fun e he x hx m hm => ho (x.under e.1) (mem_under he hx) m (by simp [hm])) hnames hsub r1 r2 r3 hd1 g4
      refine ⟨l1, l2, l3, fun q hq => ?_, ⟨fun x hx => ?_, fun x hx hc m e he hreg hac => ?_⟩⟩
      · rw [l4 q fun e _ hp => hq ((List.prefix_append _ _).trans hp), r5 q fun e _ hp => hq ((List.prefix_append _ _).trans hp)]
      · simp only [List.map_cons, List.mem_cons] at hx
        rcases hx with rfl | hx
        · simp only [List.append_nil]
          rw [l4 _ (by intro x _ hp; have := hp.length_le; simp at this; omega)]; exact hd1
        · obtain ⟨y, hy, rfl⟩ := List.mem_map.mp hx
          obtain ⟨e, he, hy⟩ := List.mem_flatMap.mp hy
          obtain ⟨z, hz, rfl⟩ := List.mem_map.mp hy
          have := (l5 e he).nodes z.node (List.mem_map_of_mem hz)
          simpa using this
      · simp only [List.map_cons, List.mem_cons] at hx
        rcases hx with rfl | hx
        · simp only [List.append_nil] at he
          simp only [List.nil_append, joins_cons, joins_nil] at hac ⊢
          by_cases hm : m ∈ es.map (·.1)
          · obtain ⟨e', he', rfl⟩ := List.mem_map.mp hm
            obtain ⟨y, hy, hyr⟩ := stored_root (h3 e' he')
            exact ⟨(y.under e'.1).node, List.mem_map.mpr ⟨y.under e'.1, mem_under he' hy, rfl⟩, by simp [hyr]⟩
          · exfalso
            have hmok : okName m := l3 _ _ (by rw [he]; simp)
            rw [l4 _ (by
              intro x hx hp
              have hp := (List.prefix_append_right_inj _).mp hp
              simp at hp
              exact hm (hp ▸ List.mem_map_of_mem hx))] at he
            have hpre : fs.at (loc fs.cwd path ++ [m]) = some e := by
              rcases r4 (loc fs.cwd path ++ [m]) with h | h
              · rw [← h]; exact he
              · rw [h] at he; simp at he
            have hmn : m ∈ fs.names (loc fs.cwd path) := mem_names.mpr (by rw [hpre]; simp)
            have hfm : filter fs (Path.join path m) = .ok true := by
              have hall : ∀ (l : List Bytes) (r : List Bytes), acceptedNames fs filter path l = .ok r → ∀ x ∈ l, ∃ b, filter fs (Path.join path x) = .ok b := by
                intro l
                induction l with
                | nil => simp
                | cons y l ihl =>
                  intro r hr x hx
                  unfold acceptedNames at hr
                  obtain ⟨b, h1, h2⟩ := Res.bind_eq_ok hr
                  obtain ⟨r', h3, _⟩ := Res.bind_eq_ok h2
                  rcases List.mem_cons.mp hx with rfl | hx
                  · exact ⟨b, h1⟩
                  · exact ihl r' h3 x hx
              obtain ⟨b, hb⟩ := hall _ _ g2' m hmn
              rw [hb, hacc fs _ b rfl hb, hac]
            have hmm : m ∈ mine := (hmine m).mpr ⟨hmn, hfm⟩
            have hex : m ∈ iter (mine.filter fun x => !((es.map (·.1)).any fun y => Path.comps y == Path.comps x)) := by
              rw [hiter, List.mem_filter]
              refine ⟨hmm, ?_⟩
              have := any_comps (names := es.map (·.1)) (by
                intro y hy
                obtain ⟨e', he', rfl⟩ := List.mem_map.mp hy
                exact (heok e' he').comp) hmok.comp
              cases hA : (es.map (·.1)).any fun y => Path.comps y == Path.comps m with
              | false => rfl
              | true => exact absurd (this.mp hA) hm
            rcases r6 m hex with h | h
            · rw [h] at he; simp at he
            · rw [h] at he
              simp at he
              subst he
              simp at hreg
        · obtain ⟨y, hy, rfl⟩ := List.mem_map.mp hx
          obtain ⟨e', he', hy⟩ := List.mem_flatMap.mp hy
          obtain ⟨z, hz, rfl⟩ := List.mem_map.mp hy
          obtain ⟨y, hy, hyr⟩ := (l5 e' he').only z.node (List.mem_map_of_mem hz) hc m e (by simpa using he) hreg (by simpa using hac)
          obtain ⟨w, hw', rfl⟩ := List.mem_map.mp hy
          exact ⟨(w.under e'.1).node, List.mem_map.mpr ⟨w.under e'.1, mem_under he' hw', rfl⟩, by simp [hyr]⟩

/-- A tree of files in which the locations `S` are as in `a0`. -/
def Frozen (S : List Bytes → Prop) (a0 a : AtFn) : Prop := AtWf a ∧ AtNames a ∧ ∀ q, S q → a q = a0 q

theorem frozen_file {S : List Bytes → Prop} {a0 a : AtFn} (h : Frozen S a0 a) {p : List Bytes} {c c' : Bytes} {md md' : FileMeta} (hf : a p = some (.file c md)) (hp : ¬ S p) :
    Frozen S a0 (upd a p (.file c' md')) := by
  refine ⟨atWf_file h.1 hf, atNames_file h.2.1 hf, fun q hq => ?_⟩
  unfold upd
  rw [if_neg]
  · exact h.2.2 q hq
  · rintro rfl; exact hp hq

theorem nodup_map_inj {α β} {f : α → β} {l : List α} (h : (l.map f).Nodup) {x y : α} (hx : x ∈ l) (hy : y ∈ l) (he : f x = f y) : x = y := by
  induction l with
  | nil => simp at hx
  | cons a l ih =>
    simp only [List.map_cons, List.nodup_cons] at h
    rcases List.mem_cons.mp hx with rfl | hx
    · rcases List.mem_cons.mp hy with rfl | hy
      · rfl
      · exact absurd (he ▸ List.mem_map_of_mem hy) h.1
    · rcases List.mem_cons.mp hy with rfl | hy
      · exact absurd (he ▸ List.mem_map_of_mem (by assumption)) h.1
      · exact ih h.2 hx hy

/-- Whatever its outcome, checkout leaves alone what is neither a file of the tree nor at or below an accepted extra entry. -/
theorem pres_checkout {db : Db} {n : Nat} {k : Key} {ns : List KNode} (hs : Snap.Stored db n k ns) (ho : ∀ x ∈ ns, ∀ m ∈ x.node.rel, okName m)
    (hnd : (ns.map fun x => x.node.rel).Nodup) {fuel : Nat} {filter : Filter} {iter : List Bytes → List Bytes} {path : Path} (hcl : Clean path)
    (hiter : ∀ l x, x ∈ iter l ↔ x ∈ l) {acc : Path → Bool} {cwd : List Bytes} (hacc : ∀ f p b, f.cwd = cwd → filter f p = .ok b → b = acc p)
    {S : List Bytes → Prop} {a0 : AtFn} (hS1 : ∀ x ∈ ns, x.node.content ≠ none → ¬ S (loc cwd path ++ x.node.rel))
    (hS2 : ∀ x ∈ ns, x.node.content = none → ∀ m, acc (joins path (x.node.rel ++ [m])) = true → (∀ y ∈ ns, y.node.rel ≠ x.node.rel ++ [m]) →
      ∀ q, S q → ¬ (loc cwd path ++ x.node.rel ++ [m]) <+: q) :
    Pres (TreeInv cwd (Frozen S a0)) (checkoutFsItem db filter iter fuel k path) (fun _ => True) := by
  induction n generalizing k ns fuel path S a0 with
  | zero => exact hs.elim
  | succ n ih =>
    cases fuel with
    | zero => exact Pres.lift fun _ _ => trivial
    | succ fuel =>
      rcases hs with ⟨sz, nm, ck, c, m, h1, h2, h3, rfl⟩ | ⟨sz, es, h1, rfl, h3⟩
      · unfold checkoutFsItem
        have hfree : ¬ S (loc cwd path) := by simpa using hS1 _ List.mem_cons_self (by simp)
        refine Pres.bind (Q := fun i => i = ⟨sz, .file, nm, [ck]⟩) (Pres.lift fun a ha => by rw [h1] at ha; simpa using ha.symm) fun i hi => ?_
        subst hi
        dsimp only
        refine Pres.bind (pres_create' hcl ?_) fun f hf => ?_
        · intro a md d nn ha hq hnn hd hfile
          refine ⟨?_, ?_, fun q hq => ?_⟩
          · rw [hq]; exact atWf_create ha.1 hd (by rw [← hq]; exact hfile) _ _
          · rw [hq]; exact atNames_create ha.2.1 hnn _
          · unfold upd
            rw [if_neg]
            · exact ha.2.2 q hq
            · rintro rfl; exact hfree hq
        · subst hf
          split
          · refine pres_readDataTo db (fun d => pres_writeAll ?_ d) _ _
            intro a c md d ha hf
            exact frozen_file ha hf hfree
          · exact Pres.panic
      · rw [checkout_dir h1]
        intro fs hfs
        refine ⟨?_, fun _ _ => trivial⟩
        rw [SM.bind_apply]
        cases g1 : fs.readDir path with
        | ok all =>
          obtain ⟨hl, hd, rfl⟩ := readDir_ok g1
          have hsm : (SM.read (fun fs : Fs => fs.readDir path) : SM Fs _) fs = (.ok (fs.names (loc fs.cwd path)), fs) := by
            show (fs.readDir path, fs) = _
            rw [g1]
          rw [hsm]
          dsimp only
          rw [hfs.1] at hd ⊢
          rw [SM.bind_apply]
          cases g2 : acceptedNames fs filter path (fs.names (loc cwd path)) with
          | ok mine =>
            have hsm : (SM.read (fun fs : Fs => acceptedNames fs filter path (fs.names (loc cwd path))) : SM Fs _) fs = (.ok mine, fs) := by
              show (acceptedNames fs filter path (fs.names (loc cwd path)), fs) = _
              rw [g2]
            have hsm2 : (SM.read (fun fs' : Fs => acceptedNames fs' filter path (fs.names (loc cwd path))) : SM Fs _) fs = (.ok mine, fs) := by
              show (acceptedNames fs filter path (fs.names (loc cwd path)), fs) = _
              rw [g2]
            rw [hsm2]
            dsimp only
            have heok : ∀ e ∈ es, okName e.1 := by
              intro e he
              obtain ⟨x, hx, hxr⟩ := stored_root (h3 e he)
              exact ho (x.under e.1) (mem_under he hx) e.1 (by simp)
            have hmine := acceptedNames_ok g2
            simp only [List.map_cons, List.nodup_cons] at hnd
            obtain ⟨hnames, hsub⟩ := stored_names_nodup h3 hnd.2
            -- the directory itself is one more location that does not change
            let S' : List Bytes → Prop := fun q => S q ∨ q = loc cwd path
            have hstart : TreeInv cwd (Frozen S' (upd a0 (loc cwd path) .dir)) fs := by
              refine ⟨hfs.1, hfs.2.1, hfs.2.2.1, ?_⟩
              intro q hq
              unfold upd
              split
              · rename_i he; rw [he, hd]
              · rename_i hne
                rcases hq with hq | hq
                · exact hfs.2.2.2 q hq
                · exact absurd hq hne
            have main : Pres (TreeInv cwd (Frozen S' (upd a0 (loc cwd path) .dir))) (do
                SM.each (removeExtra path) (iter (mine.filter fun x => !((es.map (·.1)).any fun y => Path.comps y == Path.comps x)))
                SM.each (fun (e : Bytes × Key × List KNode) => do
                  Fs.createDirAll path
                  checkoutFsItem db filter iter fuel e.2.1 (Path.join path e.1)) es) (fun _ => True) := by
              refine Pres.bind (Pres.each fun m hm => ?_) fun _ _ => Pres.each fun e he => Pres.bind (Q := fun _ => True) ?_ fun _ _ => ?_
              · rw [hiter, List.mem_filter] at hm
                obtain ⟨hm1, hm2⟩ := hm
                obtain ⟨hm3, hm4⟩ := (hmine m).mp hm1
                have hmok : okName m := hfs.2.2.1 _ _ (mem_names.mp hm3)
                have hfr : ∀ q, S' q → ¬ (loc cwd path ++ [m]) <+: q := by
                  intro q hq
                  rcases hq with hq | rfl
                  · have := hS2 _ List.mem_cons_self rfl m (by simpa using (hacc fs _ _ hfs.1 hm4).symm) (by
                      intro y hy heq
                      rcases List.mem_cons.mp hy with rfl | hy
                      · simp at heq
                      · obtain ⟨e, he, hy⟩ := List.mem_flatMap.mp hy
                        obtain ⟨z, hz, rfl⟩ := List.mem_map.mp hy
                        simp at heq
                        have : (es.map (·.1)).any (fun y => Path.comps y == Path.comps m) = true :=
                          List.any_eq_true.mpr ⟨e.1, List.mem_map_of_mem he, by rw [heq.1]; simp⟩
                        rw [this] at hm2; simp at hm2) q hq
                    simpa using this
                  · intro hp; have := hp.length_le; simp at this; omega
                refine pres_removeExtra hmok ?_ ?_
                · intro a k ha hk hk'
                  refine ⟨atWf_keep ha.1 hk', atNames_keep ha.2.1 _, fun q hq => ?_⟩
                  unfold keep
                  rw [if_pos]
                  · exact ha.2.2 q hq
                  · cases hkq : k q with
                    | true => rfl
                    | false => exact absurd (hk q hkq) (hfr q hq)
                · intro a k ha hk hnd
                  refine ⟨?_, atNames_keep ha.2.1 _, fun q hq => ?_⟩
                  · intro q x h
                    unfold keep at h ⊢
                    split at h
                    · have := ha.1 q x h
                      rw [if_pos]
                      · exact this
                      · cases hkq : k q with
                        | true => rfl
                        | false => rw [hk q hkq] at this; exact absurd this hnd
                    · simp at h
                  · unfold keep
                    rw [if_pos]
                    · exact ha.2.2 q hq
                    · cases hkq : k q with
                      | true => rfl
                      | false => exact absurd (by rw [hk q hkq]; exact List.prefix_refl _) (hfr q hq)
              · intro f hf
                have hdd : f.at (loc f.cwd path) = some .dir := by
                  rw [hf.1, hf.2.2.2 _ (Or.inr rfl)]; simp [upd]
                obtain ⟨sa, sc⟩ := createDirAll_same hf.2.1 hcl.2 hdd
                exact ⟨⟨sc.trans hf.1, by rw [sa]; exact hf.2⟩, fun _ _ => trivial⟩
              · have heo := heok e he
                have hloc : loc cwd (joins path [e.1]) = loc cwd path ++ [e.1] := loc_join _ _ heo
                refine ih (h3 e he) (fun x hx m hm => ho (x.under e.1) (mem_under he hx) m (by simp [hm])) (hsub e he) (clean_joins (ns := [e.1]) hcl (by simpa using heo)) ?_ ?_
                · intro x hx hc
                  rw [hloc]
                  rintro (hq | hq)
                  · exact hS1 (x.under e.1) (mem_under he hx) (by simpa using hc) (by simpa using hq)
                  · have := congrArg List.length hq; simp at this
                · intro x hx hc m hac hno q hq
                  rw [hloc]
                  rcases hq with hq | rfl
                  · have := hS2 (x.under e.1) (mem_under he hx) (by simpa using hc) m (by simpa using hac) (by
                      intro y hy heq
                      rcases List.mem_cons.mp hy with rfl | hy
                      · simp at heq
                      · obtain ⟨e', he', hy⟩ := List.mem_flatMap.mp hy
                        obtain ⟨z, hz, rfl⟩ := List.mem_map.mp hy
                        simp at heq
                        have hee : e' = e := nodup_map_inj hnames he' he heq.1
                        subst hee
                        exact hno z hz heq.2) q hq
                    simpa using this
                  · intro hp; have := hp.length_le; simp at this; omega
            have := (main fs hstart).1
            refine ⟨this.1, this.2.1, this.2.2.1, fun q hq => ?_⟩
            rw [this.2.2.2 q (Or.inl hq)]
            unfold upd
            split
            · rename_i he; rw [← hfs.2.2.2 q hq, he, hd]
            · rfl
          | _ =>
            have hsm2 : ((SM.read (fun fs' : Fs => acceptedNames fs' filter path (fs.names (loc cwd path))) : SM Fs _) fs) = (acceptedNames fs filter path (fs.names (loc cwd path)), fs) := rfl
            rw [hsm2, g2]
            exact hfs
        | _ =>
          have hsm : (SM.read (fun fs : Fs => fs.readDir path) : SM Fs _) fs = (fs.readDir path, fs) := rfl
          rw [hsm, g1]
          exact hfs

/-- The directories on the way to a node are nodes. -/
theorem stored_closed {db : Db} {n : Nat} {k : Key} {ns : List KNode} (hs : Snap.Stored db n k ns) {y : KNode} (hy : y ∈ ns) {r t : List Bytes} (he : y.node.rel = r ++ t) :
    ∃ z ∈ ns, z.node.rel = r := by
  induction n generalizing k ns y r with
  | zero => exact hs.elim
  | succ n ih =>
    cases r with
    | nil => exact stored_root hs
    | cons m r =>
      rcases hs with ⟨sz, nm, ck, c, m', h1, h2, h3, rfl⟩ | ⟨sz, es, h1, rfl, h3⟩
      · simp at hy; subst hy; simp at he
      · rcases List.mem_cons.mp hy with rfl | hy
        · simp at he
        · obtain ⟨e, hE, hy⟩ := List.mem_flatMap.mp hy
          obtain ⟨z, hz, rfl⟩ := List.mem_map.mp hy
          simp at he
          obtain ⟨w, hw, hwr⟩ := ih (h3 e hE) hz he.2
          exact ⟨w.under e.1, mem_under hE hw, by simp [hwr, he.1]⟩

/-- **C36**: whatever the outcome, checkout changes nothing outside the directory that is checked out, and nothing at or below an entry that the filter rejects in a
directory of the tree (such as the database folder), unless the tree has an entry of this name. -/
theorem C36_untouched {db : Db} {n : Nat} {k : Key} {ns : List KNode} (hs : Snap.Stored db n k ns) (ho : ∀ x ∈ ns, ∀ m ∈ x.node.rel, okName m)
    (hnd : (ns.map fun x => x.node.rel).Nodup) {fuel : Nat} {filter : Filter} {iter : List Bytes → List Bytes} {path : Path} (hcl : Clean path)
    (hiter : ∀ l x, x ∈ iter l ↔ x ∈ l) {acc : Path → Bool} {fs fs' : Fs} {r : Res Unit} (hacc : ∀ f p b, f.cwd = fs.cwd → filter f p = .ok b → b = acc p)
    (hw : AtWf fs.at) (hn : AtNames fs.at) (h : checkoutFsItem db filter iter fuel k path fs = (r, fs')) :
    (∀ q, ¬ loc fs.cwd path <+: q → fs'.at q = fs.at q) ∧
    ∀ x ∈ ns, x.node.content = none → ∀ m, acc (joins path (x.node.rel ++ [m])) = false → (∀ y ∈ ns, y.node.rel ≠ x.node.rel ++ [m]) →
      ∀ q, (loc fs.cwd path ++ x.node.rel ++ [m]) <+: q → fs'.at q = fs.at q := by
  have := (pres_checkout hs ho hnd (fuel := fuel) hcl hiter (cwd := fs.cwd) hacc (a0 := fs.at)
    (S := fun q => ¬ loc fs.cwd path <+: q ∨ ∃ x ∈ ns, x.node.content = none ∧ ∃ m, acc (joins path (x.node.rel ++ [m])) = false ∧ (∀ y ∈ ns, y.node.rel ≠ x.node.rel ++ [m]) ∧
      (loc fs.cwd path ++ x.node.rel ++ [m]) <+: q) (by
    rintro y hy hc (hq | ⟨x, hx, hxc, m, ham, hno, hq⟩)
    · exact hq (List.prefix_append _ _)
    · rw [List.append_assoc] at hq
      obtain ⟨t, ht⟩ := (List.prefix_append_right_inj _).mp hq
      obtain ⟨z, hz, hzr⟩ := stored_closed hs hy ht.symm
      exact hno z hz hzr) (by
    rintro y hy hyc m' ham' hno' q (hq | ⟨x, hx, hxc, m, ham, hno, hq⟩) hp
    · rw [List.append_assoc] at hp
      exact hq ((List.prefix_append _ _).trans hp)
    · rw [List.append_assoc] at hp hq
      rcases List.prefix_or_prefix_of_prefix hp hq with h | h
      · have h := (List.prefix_append_right_inj _).mp h
        rcases List.prefix_concat_iff.mp h with h | h
        · rw [h, ham] at ham'; simp at ham'
        · obtain ⟨t, ht⟩ := h
          obtain ⟨z, hz, hzr⟩ := stored_closed hs hx ht.symm
          exact hno' z hz hzr
      · have h := (List.prefix_append_right_inj _).mp h
        rcases List.prefix_concat_iff.mp h with h | h
        · rw [h, ham'] at ham; simp at ham
        · obtain ⟨t, ht⟩ := h
          obtain ⟨z, hz, hzr⟩ := stored_closed hs hy ht.symm
          exact hno z hz hzr) fs ⟨rfl, hw, hn, fun _ _ => rfl⟩).1
  rw [h] at this
  exact ⟨fun q hq => this.2.2.2 q (Or.inl hq), fun x hx hc m ham hno q hq => this.2.2.2 q (Or.inr ⟨x, hx, hc, m, ham, hno, hq⟩)⟩

/-- **C36**: outside the directory hard-coded in it, checkout removes nothing. It leaves the file system as it is, and then succeeds only if there is no file in the
tree; or it panics just after it has truncated one file of the tree, or created it empty. -/
theorem C36_outside_guard {db : Db} {n : Nat} {k : Key} {ns : List KNode} (hs : Snap.Stored db n k ns) (ho : ∀ x ∈ ns, ∀ m ∈ x.node.rel, okName m)
    {fuel : Nat} {filter : Filter} {iter : List Bytes → List Bytes} {path : Path} (hcl : Clean path)
    (hg : ∀ x ∈ ns, Path.startsWith (joins path x.node.rel) sGuard = false) {fs fs' : Fs} {r : Res Unit} (hw : AtWf fs.at)
    (h : checkoutFsItem db filter iter fuel k path fs = (r, fs')) :
    (fs'.at = fs.at ∧ (r = .ok () → ∀ x ∈ ns, x.node.content = none)) ∨
    (r = .panic ∧ ∃ x ∈ ns, x.node.content ≠ none ∧ (fs.at (loc fs.cwd path ++ x.node.rel) = none ∨ ∃ c md, fs.at (loc fs.cwd path ++ x.node.rel) = some (.file c md)) ∧
      ∃ md, fs'.at = upd fs.at (loc fs.cwd path ++ x.node.rel) (.file [] md)) := by
  have gen : fs'.cwd = fs.cwd ∧ ((fs'.at = fs.at ∧ (r = .ok () → ∀ x ∈ ns, x.node.content = none)) ∨
    (r = .panic ∧ ∃ x ∈ ns, x.node.content ≠ none ∧ (fs.at (loc fs.cwd path ++ x.node.rel) = none ∨ ∃ c md, fs.at (loc fs.cwd path ++ x.node.rel) = some (.file c md)) ∧
      ∃ md, fs'.at = upd fs.at (loc fs.cwd path ++ x.node.rel) (.file [] md))) := by
    induction n generalizing k ns fuel path fs fs' r with
    | zero => exact hs.elim
    | succ n ih =>
      cases fuel with
      | zero =>
        have h' : (Res.fuel, fs) = (r, fs') := h
        simp at h'
        obtain ⟨rfl, rfl⟩ := h'
        exact ⟨rfl, Or.inl ⟨rfl, by simp⟩⟩
      | succ fuel =>
        rcases hs with ⟨sz, nm, ck, c, m, h1, h2, h3, rfl⟩ | ⟨sz, es, h1, rfl, h3⟩
        · have hgp : Path.startsWith path sGuard = false := by simpa using hg _ List.mem_cons_self
          unfold checkoutFsItem at h
          simp only [SM.bind_apply, SM.lift_apply, h1] at h
          cases hc : Fs.create path fs with
          | mk rc fs1 =>
            rw [hc] at h
            cases rc with
            | ok f =>
              simp only [hgp, Bool.false_eq_true, if_false] at h
              have h' : (Res.panic, fs1) = (r, fs') := h
              simp at h'
              obtain ⟨rfl, rfl⟩ := h'
              obtain ⟨rfl, c1, hfile, ⟨md, a1⟩, _⟩ := create_ok hcl hc
              exact ⟨c1, Or.inr ⟨rfl, _, List.mem_cons_self, by simp, by simpa using hfile, md, by simpa using a1⟩⟩
            | _ =>
              simp at h
              obtain ⟨rfl, rfl⟩ := h
              obtain ⟨g1, g2⟩ := create_fail hc (by simp)
              exact ⟨g2, Or.inl ⟨g1, by simp⟩⟩
        · have hgp : Path.startsWith path sGuard = false := by simpa using hg _ List.mem_cons_self
          rw [checkout_dir h1, SM.bind_apply] at h
          have hsm : (SM.read (fun fs : Fs => fs.readDir path) : SM Fs _) fs = (fs.readDir path, fs) := rfl
          rw [hsm] at h
          cases g1 : fs.readDir path with
          | ok all =>
            obtain ⟨hl, hd, _⟩ := readDir_ok g1
            rw [g1] at h
            dsimp only at h
            rw [SM.bind_apply] at h
            have hsm2 : (SM.read (fun fs : Fs => acceptedNames fs filter path all) : SM Fs _) fs = (acceptedNames fs filter path all, fs) := rfl
            rw [hsm2] at h
            cases g2 : acceptedNames fs filter path all with
            | ok mine =>
              rw [g2] at h
              dsimp only at h
              rw [SM.bind_apply] at h
              generalize iter (mine.filter fun x => !((es.map (·.1)).any fun y => Path.comps y == Path.comps x)) = extra at h
              cases extra with
              | cons x l =>
                have hp : SM.each (removeExtra path) (x :: l) fs = (.panic, fs) := by
                  show (removeExtra path x >>= fun _ => SM.each (removeExtra path) l) fs = _
                  rw [SM.bind_apply]
                  have : removeExtra path x fs = (.panic, fs) := by
                    unfold removeExtra
                    rw [hgp]
                    rfl
                  rw [this]
                rw [hp] at h
                simp at h
                obtain ⟨rfl, rfl⟩ := h
                exact ⟨rfl, Or.inl ⟨rfl, by simp⟩⟩
              | nil =>
                have hp : SM.each (removeExtra path) [] fs = (.ok (), fs) := rfl
                rw [hp] at h
                dsimp only at h
                have heok : ∀ e ∈ es, okName e.1 := by
                  intro e he
                  obtain ⟨x, hx, hxr⟩ := stored_root (h3 e he)
                  exact ho (x.under e.1) (mem_under he hx) e.1 (by simp)
                have loop : ∀ (es' : List (Bytes × Key × List KNode)) (fs1 : Fs), (∀ e ∈ es', e ∈ es) → fs1.at = fs.at → fs1.cwd = fs.cwd →
                    SM.each (fun (e : Bytes × Key × List KNode) => do
                      Fs.createDirAll path
                      checkoutFsItem db filter iter fuel e.2.1 (Path.join path e.1)) es' fs1 = (r, fs') →
                    fs'.cwd = fs.cwd ∧ ((fs'.at = fs.at ∧ (r = .ok () → ∀ e ∈ es', ∀ x ∈ e.2.2, x.node.content = none)) ∨
                      (r = .panic ∧ ∃ e ∈ es', ∃ x ∈ e.2.2, x.node.content ≠ none ∧
                        (fs.at (loc fs.cwd path ++ e.1 :: x.node.rel) = none ∨ ∃ c md, fs.at (loc fs.cwd path ++ e.1 :: x.node.rel) = some (.file c md)) ∧
                        ∃ md, fs'.at = upd fs.at (loc fs.cwd path ++ e.1 :: x.node.rel) (.file [] md))) := by
                  intro es'
                  induction es' with
                  | nil =>
                    intro fs1 _ ha hc h
                    have h' : (Res.ok (), fs1) = (r, fs') := h
                    simp at h'
                    obtain ⟨rfl, rfl⟩ := h'
                    exact ⟨hc, Or.inl ⟨ha, by simp⟩⟩
                  | cons e es' ihes =>
                    intro fs1 hsub ha hc h
                    have he := hsub e (by simp)
                    have h' : ((Fs.createDirAll path >>= fun _ => checkoutFsItem db filter iter fuel e.2.1 (Path.join path e.1)) >>= fun _ => SM.each (fun (e : Bytes × Key × List KNode) => do
                      Fs.createDirAll path
                      checkoutFsItem db filter iter fuel e.2.1 (Path.join path e.1)) es') fs1 = (r, fs') := h
                    rw [SM.bind_apply, SM.bind_apply] at h'
                    obtain ⟨sa, sc⟩ := createDirAll_same (fs := fs1) (path := path) (by rw [ha]; exact hw) hcl.2 (by rw [ha, hc]; exact hd)
                    cases hcd : Fs.createDirAll path fs1 with
                    | mk rc fs2 =>
                      rw [hcd] at h' sa sc
                      dsimp only at sa sc
                      cases rc with
                      | ok u =>
                        dsimp only at h'
                        cases hco : checkoutFsItem db filter iter fuel e.2.1 (Path.join path e.1) fs2 with
                        | mk ro fs3 =>
                          have heo := heok e he
                          obtain ⟨i1, i2⟩ := ih (h3 e he) (fun x hx m hm => ho (x.under e.1) (mem_under he hx) m (by simp [hm]))
                            (path := joins path [e.1]) (clean_joins (ns := [e.1]) hcl (by simpa using heo))
                            (fun x hx => by simpa using hg (x.under e.1) (mem_under he hx)) (fs := fs2) (by rw [sa, ha]; exact hw) hco
                          have hloc : loc fs2.cwd (joins path [e.1]) = loc fs.cwd path ++ [e.1] := by
                            rw [sc, hc]; exact loc_join _ _ heo
                          rw [hloc, sa, ha] at i2
                          rw [hco] at h'
                          rcases i2 with ⟨i2, i3⟩ | ⟨rfl, x, hx, hxc, i2, md, i3⟩
                          · cases ro with
                            | ok u =>
                              dsimp only at h'
                              obtain ⟨j1, j2⟩ := ihes fs3 (fun x hx => hsub x (by simp [hx])) i2 (by rw [i1, sc, hc]) h'
                              refine ⟨j1, ?_⟩
                              rcases j2 with ⟨j2, j3⟩ | ⟨rfl, e', he', j3⟩
                              · refine Or.inl ⟨j2, fun hr x hx => ?_⟩
                                rcases List.mem_cons.mp hx with rfl | hx
                                · exact i3 rfl
                                · exact j3 hr x hx
                              · exact Or.inr ⟨rfl, e', by simp [he'], j3⟩
                            | _ =>
                              simp at h'
                              obtain ⟨rfl, rfl⟩ := h'
                              exact ⟨by rw [i1, sc, hc], Or.inl ⟨i2, by simp⟩⟩
                          · simp at h'
                            obtain ⟨rfl, rfl⟩ := h'
                            exact ⟨by rw [i1, sc, hc], Or.inr ⟨rfl, e, by simp, x, hx, hxc, by simpa using i2, md, by simpa using i3⟩⟩
                      | _ =>
                        simp at h'
                        obtain ⟨rfl, rfl⟩ := h'
                        exact ⟨by rw [sc, hc], Or.inl ⟨by rw [sa, ha], by simp⟩⟩
                obtain ⟨l1, l2⟩ := loop es fs (fun _ h => h) rfl rfl h
                refine ⟨l1, ?_⟩
                rcases l2 with ⟨l2, l3⟩ | ⟨rfl, e, he, x, hx, hxc, l2, md, l3⟩
                · refine Or.inl ⟨l2, fun hr y hy => ?_⟩
                  rcases List.mem_cons.mp hy with rfl | hy
                  · rfl
                  · obtain ⟨e, he, hy⟩ := List.mem_flatMap.mp hy
                    obtain ⟨z, hz, rfl⟩ := List.mem_map.mp hy
                    exact l3 hr e he z hz
                · exact Or.inr ⟨rfl, x.under e.1, mem_under he hx, by simpa using hxc, by simpa using l2, md, by simpa using l3⟩
            | _ =>
              rw [g2] at h
              simp at h
              obtain ⟨rfl, rfl⟩ := h
              exact ⟨rfl, Or.inl ⟨rfl, by simp⟩⟩
          | _ =>
            rw [g1] at h
            simp at h
            obtain ⟨rfl, rfl⟩ := h
            exact ⟨rfl, Or.inl ⟨rfl, by simp⟩⟩
  exact gen.2

/-- **C36**: the truncation happens. Checking out a stored file onto an existing one outside the hard-coded directory panics and leaves it empty. -/
theorem C36_truncates {db : Db} {fuel : Nat} {k : Key} {sz nm ck} (hi : getItem db k = .ok ⟨sz, .file, nm, [ck]⟩) {filter : Filter} {iter : List Bytes → List Bytes}
    {path : Path} (hg : Path.startsWith path sGuard = false) (hlast : path.lastIsName = true) {fs : Fs} (hf : fs.faults = []) {c : Bytes} {md : FileMeta}
    (hm : fs.metadata path = .ok (.file c md)) :
    ∃ fs', checkoutFsItem db filter iter (fuel + 1) k path fs = (.panic, fs') ∧ ∃ md', fs'.at = upd fs.at (loc fs.cwd path) (.file [] md') := by
  obtain ⟨hl, ha, _⟩ := metadata_ok hm
  have hc : Fs.create path fs = (.ok (loc fs.cwd path), { fs.set (loc fs.cwd path) (.file [] ⟨md.ino, fs.nextMeta.mtime⟩) with metas := fs.metas.tail }) := by
    refine (call_nofault hf).trans ?_
    dsimp only
    rw [hl]
    simp only [hlast, if_true, ha]
  refine ⟨{ fs.set (loc fs.cwd path) (.file [] ⟨md.ino, fs.nextMeta.mtime⟩) with metas := fs.metas.tail }, ?_, ⟨md.ino, fs.nextMeta.mtime⟩, ?_⟩
  · unfold checkoutFsItem
    simp only [SM.bind_apply, SM.lift_apply, hi, hc, hg, Bool.false_eq_true, if_false]
    rfl
  · exact at_set' _ (at_file_ne_root ha) _

/-- **C37**: after a successful checkout every file of the stored tree is there with exactly its contents, every directory of it is there, these directories contain
no other file or directory that the filter accepts, and nothing has changed outside. -/
theorem C37_success {db : Db} {n : Nat} {k : Key} {ns : List KNode} (hs : Snap.Stored db n k ns) (ho : ∀ x ∈ ns, ∀ m ∈ x.node.rel, okName m)
    (hnd : (ns.map fun x => x.node.rel).Nodup) {fuel : Nat} (hf : n + 6 ≤ fuel) {filter : Filter} {iter : List Bytes → List Bytes} {path : Path} (hcl : Clean path)
    (hiter : ∀ l x, x ∈ iter l ↔ x ∈ l) {acc : Path → Bool} {fs fs' : Fs} (hacc : ∀ f p b, f.cwd = fs.cwd → filter f p = .ok b → b = acc p)
    (hw : AtWf fs.at) (hn : AtNames fs.at) (h : checkoutFsItem db filter iter fuel k path fs = (.ok (), fs')) :
    (∀ x ∈ ns, ∀ c, x.node.content = some c → ∃ md, fs'.at (loc fs.cwd path ++ x.node.rel) = some (.file c md)) ∧
    (∀ x ∈ ns, x.node.content = none → fs'.at (loc fs.cwd path ++ x.node.rel) = some .dir ∧
      ∀ m e, fs'.at (loc fs.cwd path ++ x.node.rel ++ [m]) = some e → (e = .dir ∨ ∃ c md, e = .file c md) → acc (joins path (x.node.rel ++ [m])) = true →
        ∃ y ∈ ns, y.node.rel = x.node.rel ++ [m]) ∧
    ∀ q, ¬ loc fs.cwd path <+: q → fs'.at q = fs.at q := by
  obtain ⟨_, _, _, h4, h5⟩ := checkout_ok hs ho hnd hf hcl hiter hacc hw hn h
  refine ⟨fun x hx c hc => ?_, fun x hx hc => ⟨?_, fun m e he hr ha => ?_⟩, h4⟩
  · have := h5.nodes x.node (List.mem_map_of_mem hx)
    rw [hc] at this
    exact this
  · have := h5.nodes x.node (List.mem_map_of_mem hx)
    rw [hc] at this
    exact this
  · obtain ⟨y, hy, hyr⟩ := h5.only x.node (List.mem_map_of_mem hx) hc m e he hr ha
    obtain ⟨z, hz, rfl⟩ := List.mem_map.mp hy
    exact ⟨z, hz, hyr⟩

theorem wf_atWf {fs : Fs} (hw : fs.Wf) : AtWf fs.at := fun q n h => hw.parents q n h

theorem wf_atNames {fs : Fs} (hw : fs.Wf) : AtNames fs.at := fun _ _ h => hw.okNames (mem_names.mpr h)

/-- What the filter of the program accepts, if it answers: the answer depends on the spelling of the path and the current directory only. -/
def accepts (glob : Path → Bool) (dbPath : Path) (cwd : List Bytes) (p : Path) : Bool := !(loc cwd dbPath).isPrefixOf (loc cwd p) && !glob (stripDot p)

theorem makeFilter_accepts {glob : Path → Bool} {dbPath : Path} {fs : Fs} {p : Path} {b : Bool} (h : makeFilter glob dbPath fs p = .ok b) : b = accepts glob dbPath fs.cwd p := by
  unfold makeFilter at h
  obtain ⟨x, h1, h⟩ := Res.bind_eq_ok h
  obtain ⟨y, h2, h⟩ := Res.bind_eq_ok h
  have hx : ∀ {r : Res (List Bytes)} {x}, r.unwrap = .ok x → r = .ok x := by
    intro r x h; cases r <;> simp [Res.unwrap] at h ⊢; exact h
  have e1 := (canonicalize_ok.mp (hx h1)).1
  have e2 := (canonicalize_ok.mp (hx h2)).1
  unfold accepts
  rw [e1, e2] at h
  cases hp : (loc fs.cwd dbPath).isPrefixOf (loc fs.cwd p) <;> simp [hp] at h ⊢ <;> first | exact h.symm | exact h | (rw [h]; simp)

/-- The nodes that `put_fs_item` stores, in the terms of C29. -/
theorem put_nodes {E : Env} {src : Fs} (hw : src.Wf) {filter : Filter} {n : Nat} {path : Path} {db db' : Db} {k : Key}
    (hi : Inv E.H db) (hp : putFsItem E src filter n path db = (.ok k, db')) (hc : NoColl E.H db') :
    ∃ ns : List KNode, Snap.Stored db' n k ns ∧ (∀ x ∈ ns, ∀ m ∈ x.node.rel, okName m) ∧ (ns.map fun x => x.node.rel).Nodup ∧
      (∀ rel, (∃ x ∈ ns, x.node.rel = rel) ↔ Visible src filter path rel ∧ src.at (loc src.cwd path ++ rel) ≠ none) ∧
      (∀ x ∈ ns, x.node.content = none ↔ src.at (loc src.cwd path ++ x.node.rel) = some .dir) ∧
      ∀ rel c, VisFile src filter path rel c → ∃ x ∈ ns, x.node.rel = rel ∧ ∃ c', x.node.content = some c' ∧ ReadBackAs E (joins path rel) c c' := by
  obtain ⟨ps, hst, hl, hpa⟩ := putFsItem_ok hi hp hc
  refine ⟨_, hst, ?_, ?_, ?_, ?_, ?_⟩
  · intro x hx m hm
    obtain ⟨p, hp, rfl⟩ := List.mem_map.mp hx
    rw [(hpa p hp).1] at hm
    exact hl.okNames hw p.2 (List.mem_map_of_mem hp) m hm
  · have := hl.nodup hw
    rw [List.map_map] at this ⊢
    have he : ps.map ((fun x : KNode => x.node.rel) ∘ fun x => x.1) = ps.map (Node.rel ∘ fun x => x.2) :=
      List.map_congr_left fun p hp => (hpa p hp).1
    rw [he]; exact this
  · intro rel
    constructor
    · rintro ⟨x, hx, rfl⟩
      obtain ⟨p, hp, rfl⟩ := List.mem_map.mp hx
      obtain ⟨h1, h2⟩ := (hl.mem hw p.2).mp (List.mem_map_of_mem hp)
      rw [(hpa p hp).1]
      refine ⟨h1, ?_⟩
      unfold Node.isAt at h2
      split at h2
      · obtain ⟨md, h2⟩ := h2; rw [h2]; simp
      · rw [h2]; simp
    · rintro ⟨hv, ha⟩
      cases hx : src.at (loc src.cwd path ++ rel) with
      | none => exact absurd hx ha
      | some e =>
        have hm : ∃ y ∈ ps.map (·.2), y.rel = rel := by
          rcases hl.complete hw hv hx with rfl | ⟨c, md, rfl⟩
          · exact ⟨⟨rel, none⟩, (hl.mem hw ⟨rel, none⟩).mpr ⟨hv, hx⟩, rfl⟩
          · exact ⟨⟨rel, some c⟩, (hl.mem hw ⟨rel, some c⟩).mpr ⟨hv, md, hx⟩, rfl⟩
        obtain ⟨y, hy, hyr⟩ := hm
        obtain ⟨p, hp, rfl⟩ := List.mem_map.mp hy
        exact ⟨p.1, List.mem_map_of_mem hp, (hpa p hp).1.trans hyr⟩
  · intro x hx
    obtain ⟨p, hp, rfl⟩ := List.mem_map.mp hx
    have h0 := paired_isNone hpa hp
    obtain ⟨h1, h2⟩ := (hl.mem hw p.2).mp (List.mem_map_of_mem hp)
    rw [(hpa p hp).1]
    unfold Node.isAt at h2
    cases hc2 : p.2.content with
    | none =>
      rw [hc2] at h0 h2
      simp only [Option.isNone_none, Option.isNone_iff_eq_none] at h0
      exact ⟨fun _ => h2, fun _ => h0⟩
    | some c =>
      rw [hc2] at h0 h2
      obtain ⟨md, h2⟩ := h2
      cases hc1 : p.1.node.content with
      | none => rw [hc1] at h0; simp at h0
      | some c' => rw [h2]; simp
  · intro rel c hv
    obtain ⟨c', h1, h2⟩ := paired_file' hw hl hpa hv
    obtain ⟨y, hy, hy2⟩ := List.mem_filterMap.mp h1
    obtain ⟨p, hp, rfl⟩ := List.mem_map.mp hy
    cases hcc : p.1.node.content with
    | none => rw [hcc] at hy2; simp at hy2
    | some c'' =>
      rw [hcc] at hy2
      simp at hy2
      exact ⟨p.1, List.mem_map_of_mem hp, hy2.1, c'', hcc, by rw [hy2.2]; exact h2⟩

/-- **C37**, from the command's point of view: after a successful checkout with the program's filter of a tree stored by `put_fs_item`, every file of the stored
directory is there with its contents (those of C24), every directory is there, and these directories contain no other file or directory, except in the database
folder and those excluded by a pattern. Nothing changes outside the destination. -/
theorem C37_restores (E : Env) (src : Fs) (hw : src.Wf) (filter : Filter) (n : Nat) (path : Path) (db db' later : Db) (k : Key)
    (hi : Inv E.H db) (hp : putFsItem E src filter n path db = (.ok k, db')) (hc : NoColl E.H db') (hlater : db'.data <+: later.data)
    (dst dst' : Fs) (hdw : dst.Wf) (to : Path) (hto : 0 ∉ to ∧ sDotDot ∉ to.comps) (glob : Path → Bool) (dbPath : Path)
    (iter : List Bytes → List Bytes) (hiter : ∀ l, (iter l).Perm l) (fuel : Nat) (hfuel : n + 6 ≤ fuel)
    (h : checkoutFsItem later (makeFilter glob dbPath) iter fuel k to dst = (.ok (), dst')) :
    (∀ rel c, VisFile src filter path rel c → ∃ c', dst'.content (loc dst.cwd to ++ rel) = some c' ∧ ReadBackAs E (joins path rel) c c') ∧
    (∀ rel, Visible src filter path rel → src.at (loc src.cwd path ++ rel) = some .dir → dst'.at (loc dst.cwd to ++ rel) = some .dir ∧
      ∀ m e, dst'.at (loc dst.cwd to ++ rel ++ [m]) = some e → (e = .dir ∨ ∃ c md, e = .file c md) →
        ¬ loc dst.cwd dbPath <+: loc dst.cwd to ++ rel ++ [m] → glob (stripDot (joins to (rel ++ [m]))) = false →
        Visible src filter path (rel ++ [m]) ∧ src.at (loc src.cwd path ++ rel ++ [m]) ≠ none) ∧
    ∀ q, ¬ loc dst.cwd to <+: q → dst'.at q = dst.at q := by
  obtain ⟨ns, h1, h2, h3, h4, h5, h6⟩ := put_nodes hw hi hp hc
  obtain ⟨c1, c2, c3⟩ := C37_success (h1.mono hlater) h2 h3 hfuel hto (fun l x => (hiter l).mem_iff) (acc := accepts glob dbPath dst.cwd)
    (fun f p b hf hb => by rw [makeFilter_accepts hb, hf]) (wf_atWf hdw) (wf_atNames hdw) h
  refine ⟨fun rel c hv => ?_, fun rel hv hd => ?_, c3⟩
  · obtain ⟨x, hx, rfl, c', hc', hrb⟩ := h6 rel c hv
    exact ⟨c', content_some.mpr (c1 x hx c' hc'), hrb⟩
  · obtain ⟨x, hx, rfl⟩ := (h4 rel).mpr ⟨hv, by rw [hd]; simp⟩
    obtain ⟨d1, d2⟩ := c2 x hx ((h5 x hx).mpr hd)
    refine ⟨d1, fun m e he hreg hnd hg => ?_⟩
    have hlen : ∀ m, loc dst.cwd (joins to (x.node.rel ++ [m])) = loc dst.cwd to ++ x.node.rel ++ [m] ∨ ¬ okName m := by
      intro m
      by_cases hm : okName m
      · left
        rw [loc_joins _ _ (by
          intro y hy
          rcases List.mem_append.mp hy with hy | hy
          · exact h2 x hx y hy
          · simp at hy; subst hy; exact hm)]
        simp
      · exact Or.inr hm
    have hmok : okName m := by
      obtain ⟨_, _, an, _⟩ := checkout_ok (h1.mono hlater) h2 h3 hfuel hto (fun l x => (hiter l).mem_iff) (acc := accepts glob dbPath dst.cwd)
        (fun f p b hf hb => by rw [makeFilter_accepts hb, hf]) (wf_atWf hdw) (wf_atNames hdw) h
      exact an _ _ (by rw [he]; simp)
    have hl := (hlen m).resolve_right (fun h => h hmok)
    obtain ⟨y, hy, hyr⟩ := d2 m e he hreg (by
      unfold accepts
      rw [hl, hg]
      simp only [Bool.not_false, Bool.and_true, Bool.not_eq_true']
      cases hpre : (loc dst.cwd dbPath).isPrefixOf (loc dst.cwd to ++ x.node.rel ++ [m]) with
      | false => rfl
      | true => exact absurd (List.isPrefixOf_iff_prefix.mp hpre) hnd)
    have := (h4 _).mp ⟨y, hy, hyr⟩
    rw [← List.append_assoc] at this
    exact this

/-- **C36**: the database folder survives, whatever the outcome, unless the tree that is checked out has an entry in its place. -/
theorem C36_database_kept (E : Env) (src : Fs) (hw : src.Wf) (filter : Filter) (n : Nat) (path : Path) (db db' later : Db) (k : Key)
    (hi : Inv E.H db) (hp : putFsItem E src filter n path db = (.ok k, db')) (hc : NoColl E.H db') (hlater : db'.data <+: later.data)
    (dst dst' : Fs) (hdw : dst.Wf) (to : Path) (hto : 0 ∉ to ∧ sDotDot ∉ to.comps) (glob : Path → Bool) (dbPath : Path)
    (iter : List Bytes → List Bytes) (hiter : ∀ l, (iter l).Perm l) (fuel : Nat) (r : Res Unit)
    (h : checkoutFsItem later (makeFilter glob dbPath) iter fuel k to dst = (r, dst'))
    (rel : List Bytes) (m : Bytes) (hm : okName m) (hdb : loc dst.cwd dbPath = loc dst.cwd to ++ rel ++ [m])
    (hdir : Visible src filter path rel ∧ src.at (loc src.cwd path ++ rel) = some .dir)
    (hno : ¬ (Visible src filter path (rel ++ [m]) ∧ src.at (loc src.cwd path ++ rel ++ [m]) ≠ none)) :
    ∀ q, loc dst.cwd dbPath <+: q → dst'.at q = dst.at q := by
  obtain ⟨ns, h1, h2, h3, h4, h5, h6⟩ := put_nodes hw hi hp hc
  obtain ⟨_, c2⟩ := C36_untouched (h1.mono hlater) h2 h3 (fuel := fuel) hto (fun l x => (hiter l).mem_iff) (acc := accepts glob dbPath dst.cwd)
    (fun f p b hf hb => by rw [makeFilter_accepts hb, hf]) (wf_atWf hdw) (wf_atNames hdw) h
  obtain ⟨x, hx, rfl⟩ := (h4 rel).mpr ⟨hdir.1, by rw [hdir.2]; simp⟩
  intro q hq
  refine c2 x hx ((h5 x hx).mpr hdir.2) m ?_ ?_ q (by rw [← hdb]; exact hq)
  · unfold accepts
    rw [loc_joins _ _ (by
      intro y hy
      rcases List.mem_append.mp hy with hy | hy
      · exact h2 x hx y hy
      · simp at hy; subst hy; exact hm), ← List.append_assoc, ← hdb, List.isPrefixOf_iff_prefix.mpr (List.prefix_refl _)]
    rfl
  · intro y hy hyr
    have := (h4 _).mp ⟨y, hy, hyr⟩
    rw [← List.append_assoc] at this
    exact hno this

/-! A repository in the hard-coded directory, with a changed file, an extra file, an extra directory, an empty directory of the tree and the database folder `d`;
and one elsewhere. -/
def exGuardDirs : List Bytes := [[104, 111, 109, 101], [106, 101, 115, 115], [115, 114, 99], [115, 110, 97, 112, 99, 100], [114, 101, 112, 111]]
def exRepo : Fs := { ents := [([[104, 111, 109, 101]], .dir), (exGuardDirs.take 2, .dir), (exGuardDirs.take 3, .dir), (exGuardDirs.take 4, .dir), (exGuardDirs, .dir),
  (exGuardDirs ++ [[97]], .file [9] ⟨1, 1⟩), (exGuardDirs ++ [[120]], .file [9] ⟨2, 1⟩), (exGuardDirs ++ [[101]], .dir), (exGuardDirs ++ [[121]], .dir),
  (exGuardDirs ++ [[121], [122]], .file [] ⟨3, 1⟩), (exGuardDirs ++ [[100]], .dir), (exGuardDirs ++ [[100], [98]], .file [5] ⟨4, 1⟩)], cwd := exGuardDirs }
theorem exRepo_wf : exRepo.Wf := wf_of_list (by decide) (by decide) (by decide) (by decide)
example : (match putFsItem exEnv exFs (fun _ _ => .ok true) 3 [47, 115] {} with
    | (.ok k, db) =>
      let r := @checkoutFsItem Subset.serde db (makeFilter (fun _ => false) [100]) id 9 k sGuard exRepo
      (r.1, [[[97]], [[100], [98]]].map fun q => r.2.content (exGuardDirs ++ q), [[[120]], [[101]], [[121], [122]]].map fun q => r.2.at (exGuardDirs ++ q))
    | _ => (.fuel, [], [])) = (.ok (), [some [1, 2], some [5]], [none, some .dir, none]) := by decide +kernel
/-- elsewhere: the changed file is truncated and the program panics -/
example : (match putFsItem exEnv exFs (fun _ _ => .ok true) 3 [47, 115] {} with
    | (.ok k, db) =>
      let r := @checkoutFsItem Subset.serde db (makeFilter (fun _ => false) [47]) id 9 k [47, 115] exFs
      (r.1, r.2.content [[115], [97]])
    | _ => (.fuel, none)) = (.panic, some []) := by decide +kernel
/-- a database folder inside an extra directory is removed with it: here `y` is extra and the database is `y/z` -/
example : (match putFsItem exEnv exFs (fun _ _ => .ok true) 3 [47, 115] {} with
    | (.ok k, db) =>
      let r := @checkoutFsItem Subset.serde db (makeFilter (fun _ => false) [121, 47, 122]) id 9 k sGuard exRepo
      (r.1, r.2.at (exGuardDirs ++ [[121], [122]]))
    | _ => (.fuel, none)) = (.ok (), none) := by decide +kernel

end Snap.Props
