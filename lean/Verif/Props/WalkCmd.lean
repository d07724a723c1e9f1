import Verif.Props.Fetchable
/-! Property C89: what `debug walk-tree` and `debug walk-fs-tree` print. -/
namespace Snap.Props
open Snap
set_option linter.unusedSectionVars false
variable [Serde] [LawfulSerde]

/-- `k'` is what lies at the names `rel` below `k`. -/
inductive Spec.Under (db : Db) : Key → List Bytes → Key → Prop where
  | here {k} : Spec.Under db k [] k
  | down {k i ck n rel k'} : getItem db k = .ok i → i.itemtype = .dir → (ck, n) ∈ i.children.zip i.names → Spec.Under db ck rel k' → Spec.Under db k (n :: rel) k'

/-- The command prints these lines, in some order, each once. -/
def Spec.Prints {α : Type} (out : List Out) (line : List Bytes → α → Out) (P : List Bytes → α → Prop) : Prop :=
  ∃ l : List (List Bytes × α), out = l.map (fun x => line x.1 x.2) ∧ (l.map (·.1)).Nodup ∧ ∀ rel a, (rel, a) ∈ l ↔ P rel a

theorem emitAll_ok {α} {order : List Path → List Path} (ho : ∀ l, (order l).Perm l) {m : PMap α} (hm : m.Ok) (line : Path → α → Out) (s : Sys) :
    ∃ L : List (Path × α), L.Perm m ∧ emitAll order m line s = (.ok (), { s with out := s.out ++ L.map fun x => line x.1 x.2 }) := by
  have hget : ∀ e ∈ m, m.get e.1 = some e.2 := fun e he => (PMap.get_iff hm (hm.2 e he)).mpr he
  have key : ∀ (l : List Path) (s : Sys), SM.each (fun p => match m.get p with
      | some v => emit (line p v)
      | none => pure ()) l s = (.ok (), { s with out := s.out ++ (l.filterMap fun p => (m.get p).map fun v => (p, v)).map fun x => line x.1 x.2 }) := by
    intro l
    induction l with
    | nil => intro s; simp [SM.each, SM.pure]
    | cons p l ih =>
      intro s
      cases hp : m.get p with
      | none =>
        refine (each_step (s1 := s) (by simp only [hp]; rfl)).trans ?_
        rw [ih s]
        simp [hp]
      | some v =>
        refine (each_step (s1 := { s with out := s.out ++ [line p v] }) (by simp only [hp]; rfl)).trans ?_
        rw [ih]
        simp [hp]
  refine ⟨(order (m.map (·.1))).filterMap fun p => (m.get p).map fun v => (p, v), ?_, ?_⟩
  · refine ((ho (m.map (·.1))).filterMap _).trans ?_
    rw [List.filterMap_map]
    have : m.filterMap ((fun p => (m.get p).map fun v => (p, v)) ∘ fun x => x.1) = m := by
      have : ∀ l : PMap α, (∀ e ∈ l, m.get e.1 = some e.2) → l.filterMap ((fun p => (m.get p).map fun v => (p, v)) ∘ fun x => x.1) = l := by
        intro l hl
        induction l with
        | nil => rfl
        | cons e l ih =>
          have he := hl e (by simp)
          rw [List.filterMap_cons, ih fun e' h => hl e' (by simp [h])]
          simp [he]
      exact this m hget
    rw [this]
  · exact key _ s

/-- From the printed paths to the names they are made of. -/
theorem prints_of {α} {line : Path → α → Out} {items : List (List Bytes × α)} (hok : ∀ x ∈ items, ∀ m ∈ x.1, okComp m) (hnd : (items.map (·.1)).Nodup) {L : List (Path × α)}
    (hL : L.Perm (items.map fun x => (relPath x.1, x.2))) {P : List Bytes → α → Prop} (hP : ∀ rel a, (rel, a) ∈ items ↔ P rel a) :
    Spec.Prints (L.map fun x => line x.1 x.2) (fun rel a => line (relPath rel) a) P := by
  have hback : (items.map fun x => (relPath x.1, x.2)).map (fun x => (Path.comps x.1, x.2)) = items := by
    rw [List.map_map]
    refine (List.map_congr_left (g := id) fun x hx => ?_).trans (List.map_id _)
    show (Path.comps (relPath x.1), x.2) = x
    rw [comps_relPath (hok x hx)]
  have hL' : (L.map fun x => (Path.comps x.1, x.2)).Perm items := by
    have := hL.map fun x => (Path.comps x.1, x.2)
    rwa [hback] at this
  refine ⟨L.map fun x => (Path.comps x.1, x.2), ?_, ((hL'.map (·.1)).nodup_iff).mpr hnd, fun rel a => (hL'.mem_iff).trans (hP rel a)⟩
  rw [List.map_map]
  refine List.map_congr_left fun x hx => ?_
  obtain ⟨y, hy, e⟩ := List.mem_map.mp (hL.mem_iff.mp hx)
  subst e
  show line (relPath y.1) y.2 = line (relPath (Path.comps (relPath y.1))) y.2
  rw [comps_relPath (hok y hy)]

/-- What lies below the key of a stored tree are its nodes. -/
theorem stored_under {db : Db} {n : Nat} {k : Key} {ns : List KNode} (hs : Snap.Stored db n k ns) (rel : List Bytes) (k' : Key) (d : Bool) :
    (Spec.Under db k rel k' ∧ Comes db k' [] d) ↔ ∃ x ∈ ns, x.node.rel = rel ∧ x.key = k' ∧ x.node.content.isNone = d := by
  induction n generalizing k ns rel with
  | zero => exact hs.elim
  | succ n ih =>
    rcases hs with ⟨sz, nm, ck, c, m, h1, h2, h3, rfl⟩ | ⟨sz, es, h1, rfl, h3⟩
    · constructor
      · rintro ⟨hu, hd⟩
        cases hu with
        | here => cases hd with
          | here hi =>
            rw [h1] at hi
            simp at hi
            subst hi
            exact ⟨_, List.mem_cons_self, rfl, rfl, rfl⟩
        | down hi hty => rw [h1] at hi; simp at hi; subst hi; simp at hty
      · rintro ⟨x, hx, rfl, rfl, hd⟩
        simp at hx
        subst hx
        have := Comes.here h1
        simp at hd
        subst hd
        exact ⟨.here, this⟩
    · constructor
      · rintro ⟨hu, hd⟩
        cases hu with
        | here => cases hd with
          | here hi =>
            rw [h1] at hi
            simp at hi
            subst hi
            exact ⟨_, List.mem_cons_self, rfl, rfl, rfl⟩
        | down hi hty hc hr =>
          rw [h1] at hi
          simp at hi
          subst hi
          rw [zip_map] at hc
          obtain ⟨e, he, heq⟩ := List.mem_map.mp hc
          simp at heq
          obtain ⟨rfl, rfl⟩ := heq
          obtain ⟨x, hx, hxr, hxk, hxd⟩ := (ih (h3 e he) _).mp ⟨hr, hd⟩
          exact ⟨x.under e.1, mem_under he hx, by simp [hxr], hxk, by simpa using hxd⟩
      · rintro ⟨x, hx, rfl, rfl, hd⟩
        rcases List.mem_cons.mp hx with rfl | hx
        · have := Comes.here h1
          simp at hd
          subst hd
          exact ⟨.here, this⟩
        · obtain ⟨e, he, hy⟩ := List.mem_flatMap.mp hx
          obtain ⟨z, hz, rfl⟩ := List.mem_map.mp hy
          obtain ⟨g1, g2⟩ := (ih (h3 e he) _).mpr ⟨z, hz, rfl, rfl, by simpa using hd⟩
          refine ⟨?_, g2⟩
          show Spec.Under db k (e.1 :: z.node.rel) z.key
          exact .down h1 rfl (by rw [zip_map]; exact List.mem_map.mpr ⟨e, he, rfl⟩) g1

/-- **C89**, `debug walk-tree`: for a key of a file or directory it ends well and prints, each once and in some order, exactly one line for each file and directory below it: path, key and whether
it is a directory; the directory itself is not listed, a file is (with the empty path). -/
theorem C89_tree (X : Ctx) (hiter : ∀ i l, (X.iter i l).Perm l) (w : World) (hs : w.Sound X.E.H) (R : Repo) (q : List Bytes) (hc : NoColl X.E.H (w.dbs q)) (ho : Opens X w R q)
    (hcf : w.cache.faults = []) (hdepth : (w.dbs q).data.length ≤ X.depth) (key : Keyish) (k : Key) (hk : canonicalize (w.dbs q) key = .ok k)
    (hitem : LeadsTo (w.dbs q) k IsItem) :
    (mainRun X (.walkTree key) w).1 = .success ∧
    Spec.Prints (mainRun X (.walkTree key) w).2.1 (fun rel (a : Key × Bool) => .item (relPath rel) a.1 a.2)
      (fun rel a => Spec.Under (w.dbs q) k rel a.1 ∧ Comes (w.dbs q) a.1 [] a.2 ∧ ¬ (rel = [] ∧ a.2 = true)) ∧
    (mainRun X (.walkTree key) w).2.2.fs = w.fs := by
  obtain ⟨o, g1, g2⟩ := hitem
  obtain ⟨ns, g3, g4, g5, _⟩ := (whole_trees hs q hc g1).2 g2
  have g3 := g3 _ (Nat.le_refl _)
  have hwalk : walkItems (w.dbs q) X.depth k = _ := walkItemsFrom_stored (pre := []) g3 (by simp) g4 g5 hdepth
  simp only [dropRoot, if_true, entries, List.nil_append] at hwalk
  obtain ⟨L, hL, hrun⟩ := emitAll_ok (hiter 3) (walkItemsFrom_okMap hwalk) (fun p (v : Key × Bool) => .item p v.1 v.2) (startOf w q)
  have hrun' : (Command.walkTree key).inRepo X R (startOf w q) = (.ok (), { startOf w q with out := L.map fun x => .item x.1 x.2.1 x.2.2 }) := by
    show cmdWalkTree X key (startOf w q) = _
    unfold cmdWalkTree
    refine (SM.bind_apply (σ := Sys) _ _ _).trans ?_
    rw [readDb_apply, show canonicalize (startOf w q).db key = .ok k from hk]
    refine (SM.bind_apply (σ := Sys) _ _ _).trans ?_
    rw [readDb_apply, show walkItems (startOf w q).db X.depth k = _ from hwalk]
    exact hrun.trans (by simp [startOf])
  refine ⟨?_, ?_, ?_⟩
  · rw [finish_exit (by simp) ho (fun s hs => by rw [hrun'] at hs; rw [← (Prod.mk.inj hs).2]; exact hcf), hrun']
  · rw [mainRun_open (by simp) ho, runIn_out, hrun']
    refine prints_of (line := fun p (v : Key × Bool) => Out.item p v.1 v.2) (items := (ns.filter fun x => !(x.node.rel = [] ∧ x.node.content = none)).map fun x => (x.node.rel, x.val)) ?_ ?_ ?_ ?_
    · intro x hx m hm
      obtain ⟨y, hy, rfl⟩ := List.mem_map.mp hx
      exact (g4 y (List.mem_filter.mp hy).1 m hm).comp
    · rw [List.map_map]
      exact g5.sublist (List.filter_sublist.map _)
    · rw [List.map_map]; exact hL
    · rintro rel ⟨k', d⟩
      rw [← and_assoc, stored_under g3]
      simp only [List.mem_map, List.mem_filter, KNode.val, Prod.mk.injEq]
      constructor
      · rintro ⟨x, ⟨hx, hr⟩, rfl, rfl, rfl⟩
        exact ⟨⟨x, hx, rfl, rfl, rfl⟩, by simp at hr ⊢; exact fun h => hr.resolve_left (fun h' => h' h)⟩
      · rintro ⟨⟨x, hx, rfl, rfl, rfl⟩, hr⟩
        exact ⟨x, ⟨hx, by simp at hr ⊢; exact (Classical.em (x.node.rel = [])).elim (fun h => .inr (hr h)) .inl⟩, rfl, rfl, rfl⟩
  · rw [mainRun_open (by simp) ho]
    show ((Command.walkTree key).inRepo X R (startOf w q)).2.fs = _
    rw [hrun']
    rfl

/-- How `debug walk-fs-tree` runs, with or without a repository. -/
theorem walkFsTree_run {X : Ctx} {w : World} (hrun : (∃ R q, Opens X w R q) ∨ findDbFolder w.fs X.dbPath = .ok none) (path : Path) :
    ∃ s : Sys, s.fs = w.fs ∧ s.cache = w.cache ∧ s.out = [] ∧ (mainRun X (.walkFsTree path) w).1 = exitOf (cmdWalkFsTree X path s).1 (Cache.finish (cmdWalkFsTree X path s).1 w.cache (cmdWalkFsTree X path s).2.cache).1 ∧
      (mainRun X (.walkFsTree path) w).2.1 = (cmdWalkFsTree X path s).2.out ∧ (mainRun X (.walkFsTree path) w).2.2.fs = (cmdWalkFsTree X path s).2.fs := by
  rcases hrun with ⟨R, q, ho⟩ | hno
  · exact ⟨startOf w q, rfl, rfl, rfl, by rw [mainRun_open (by simp) ho]; exact ⟨rfl, rfl, rfl⟩⟩
  · refine ⟨{ db := {}, cache := w.cache, fs := w.fs }, rfl, rfl, rfl, ?_⟩
    have : mainRun X (.walkFsTree path) w = runOut X (.walkFsTree path) w := by
      unfold mainRun
      rw [hno]
    rw [this]
    exact ⟨rfl, rfl, rfl⟩

/-- **C89**, `debug walk-fs-tree`, inside and outside of repositories: it ends well exactly if the path is a directory with nothing but directories and regular files in it, at any depth; then it
prints, each once and in some order, exactly one line for each of these: path and whether it is a directory; the directory itself is not listed. It changes nothing. -/
theorem C89_fs (X : Ctx) (hiter : ∀ i l, (X.iter i l).Perm l) (w : World) (hw : w.fs.Wf) (hrun : (∃ R q, Opens X w R q) ∨ findDbFolder w.fs X.dbPath = .ok none)
    (hcf : w.cache.faults = []) (path : Path) (hdepth : ∀ rel, w.fs.at (loc w.fs.cwd path ++ rel) ≠ none → rel.length < X.depth) :
    ((mainRun X (.walkFsTree path) w).1 = .success ↔ w.fs.metadata path = .ok .dir ∧ ∀ rel e, w.fs.at (loc w.fs.cwd path ++ rel) = some e → e = .dir ∨ ∃ c md, e = .file c md) ∧
    ((mainRun X (.walkFsTree path) w).1 = .success → Spec.Prints (mainRun X (.walkFsTree path) w).2.1 (fun rel d => .fsItem (relPath rel) d)
      (fun rel d => rel ≠ [] ∧ KindAt w.fs (loc w.fs.cwd path ++ rel) d)) ∧
    (mainRun X (.walkFsTree path) w).2.2.fs = w.fs := by
  obtain ⟨s, hsf, hsc, hso, h1, h2, h3⟩ := walkFsTree_run hrun path
  rw [h1, h2, h3]
  have hvis : ∀ rel, Visible w.fs (fun _ _ => .ok true) path rel := fun rel r m h => rfl
  have hcmd : cmdWalkFsTree X path s = match walkReal w.fs (fun _ _ => .ok true) X.depth path with
      | .ok m => emitAll (X.iter 3) m .fsItem s
      | .err e => (.err e, s)
      | .panic => (.panic, s)
      | .fuel => (.fuel, s) := by
    unfold cmdWalkFsTree
    refine (SM.bind_apply (σ := Sys) _ _ _).trans ?_
    rw [SM.read_apply, hsf]
    cases walkReal w.fs (fun _ _ => .ok true) X.depth path <;> rfl
  cases hr : walkReal w.fs (fun _ _ => .ok true) X.depth path with
  | ok m =>
    rw [hr] at hcmd
    simp only at hcmd
    obtain ⟨L, hL, hem⟩ := emitAll_ok (hiter 3) (walkReal_okMap hr) Out.fsItem s
    rw [hem] at hcmd
    have hb : path ≠ [] := by
      rintro rfl
      unfold walkReal at hr
      cases hn : X.depth with
      | zero => rw [hn] at hr; simp [walkRealFrom] at hr
      | succ n =>
        rw [hn] at hr
        unfold walkRealFrom at hr
        obtain ⟨x, h1, _⟩ := Res.bind_eq_ok hr
        simp [Fs.metadata, Fs.locate, Path.join, Path.isAbs] at h1
    obtain ⟨⟨ns, hns⟩, hd⟩ := walkRealFrom_ok hw hb (pre := []) (by simp) hr
    have hd := hd rfl
    have hns : Listed w.fs (fun _ _ => .ok true) X.depth path ns := hns
    have hok : exitOf (cmdWalkFsTree X path s).1 (Cache.finish (cmdWalkFsTree X path s).1 w.cache (cmdWalkFsTree X path s).2.cache).1 = .success := by
      rw [hcmd]
      simp only [exitOf, Cache.finish, hsc, hcf]
      rfl
    rw [hok]
    refine ⟨⟨fun _ => ⟨hd, fun rel e he => hns.complete hw (hvis rel) he⟩, fun _ => rfl⟩, fun _ => ?_, by rw [hcmd]; exact hsf⟩
    rw [hcmd]
    show Spec.Prints (s.out ++ _) _ _
    rw [hso, List.nil_append]
    have hlist := walkReal_listed hw hns hd (Nat.le_refl _)
    rw [hr] at hlist
    simp only [Res.ok.injEq] at hlist
    refine prints_of (items := (ns.filter fun x => !(x.rel = [] ∧ x.content = none)).map fun x => (x.rel, x.content.isNone)) ?_ ?_ ?_ ?_
    · intro x hx m hm
      obtain ⟨y, hy, rfl⟩ := List.mem_map.mp hx
      exact (hns.okNames hw y (List.mem_filter.mp hy).1 m hm).comp
    · rw [List.map_map]
      exact (hns.nodup hw).sublist (List.filter_sublist.map _)
    · rw [List.map_map]; rw [hlist] at hL; exact hL
    · intro rel d
      obtain ⟨_, hat, _⟩ := metadata_ok hd
      simp only [List.mem_map, List.mem_filter, Prod.mk.injEq]
      constructor
      · rintro ⟨x, ⟨hx, hr⟩, rfl, rfl⟩
        obtain ⟨_, ha⟩ := (hns.mem hw x).mp hx
        refine ⟨fun h0 => ?_, isAt_kind ha⟩
        unfold Node.isAt at ha
        rw [h0] at ha hr
        cases hc : x.content with
        | none => rw [hc] at hr; simp at hr
        | some c =>
          rw [hc] at ha
          obtain ⟨md, ha⟩ := ha
          rw [List.append_nil, hat] at ha; simp at ha
      · rintro ⟨h0, ⟨rfl, ha⟩ | ⟨rfl, c, hc⟩⟩
        · exact ⟨⟨rel, none⟩, ⟨(hns.mem hw ⟨rel, none⟩).mpr ⟨hvis rel, ha⟩, by simp [h0]⟩, rfl, rfl⟩
        · exact ⟨⟨rel, some c⟩, ⟨(hns.mem hw ⟨rel, some c⟩).mpr ⟨hvis rel, content_some.mp hc⟩, by simp⟩, rfl, rfl⟩
  | err e =>
    rw [hr] at hcmd
    simp only at hcmd
    rw [hcmd]
    refine ⟨⟨fun h => by simp [exitOf] at h, ?_⟩, fun h => by simp [exitOf] at h, hsf⟩
    rintro ⟨hd, hty⟩
    exfalso
    obtain ⟨hl, ha, _⟩ := metadata_ok hd
    obtain ⟨ns, hns⟩ := listed_exists hw (filter := fun _ _ => .ok true) X.depth hl (by rw [ha]; simp) hdepth (fun rel e _ he => hty rel e he) (fun _ _ _ _ => ⟨true, rfl⟩)
    rw [walkReal_listed hw hns hd (Nat.le_refl _)] at hr
    simp at hr
  | panic => exact absurd hr (walkReal_calm _ _)
  | fuel =>
    rw [hr] at hcmd
    simp only at hcmd
    rw [hcmd]
    refine ⟨⟨fun h => by simp [exitOf] at h, ?_⟩, fun h => by simp [exitOf] at h, hsf⟩
    rintro ⟨hd, hty⟩
    exfalso
    obtain ⟨hl, ha, _⟩ := metadata_ok hd
    obtain ⟨ns, hns⟩ := listed_exists hw (filter := fun _ _ => .ok true) X.depth hl (by rw [ha]; simp) hdepth (fun rel e _ he => hty rel e he) (fun _ _ _ _ => ⟨true, rfl⟩)
    rw [walkReal_listed hw hns hd (Nat.le_refl _)] at hr
    simp at hr

end Snap.Props
