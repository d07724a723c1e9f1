import Verif.Lemmas.Disk
import Verif.Props.Fetchable
/-! Property C96: fetching and checking out where there are symbolic links. -/
namespace Snap.Props
open Snap
open Spec
set_option linter.unusedSectionVars false
variable [Serde] [LawfulSerde]

/-! ### What is fetched is there -/

theorem append_ways (f : List Bytes) (b : Bytes) (d : Disk) : Ways d.toLinkFs (Disk.append f b d).toLinkFs := by
  unfold Disk.append
  split
  · rename_i c md hc
    have hf := lat_file_ne_root hc
    refine ⟨rfl, rfl, fun q hq => ?_, fun q t hq => ?_, fun q t hq => ?_⟩
    · rw [dat_set _ hf, if_neg (fun h => by subst h; rw [hc] at hq; simp at hq)]; exact hq
    · rw [dat_set _ hf, if_neg (fun h => by subst h; rw [hc] at hq; simp at hq)]; exact hq
    · rw [dat_set _ hf] at hq
      split at hq
      · simp at hq
      · exact hq
  · exact ⟨rfl, rfl, fun _ h => h, fun _ _ h => h, fun _ _ h => h⟩

/-- Writing one file the way `get_fs_item` does. -/
def plantLinked (P : Path) (ls : List Bytes) : SM Disk Unit := do
  match Path.parent P with
  | some q => Disk.createDirAll q
  | none => pure ()
  let f ← Disk.createNew P
  SM.each (Disk.writeAll f) ls

theorem getLinked_stored {db : Db} {n : Nat} {k : Key} {ns : List KNode} (hs : Snap.Stored db n k ns) :
    ∃ fl : Parts, Cuts fl (ns.map (·.node)) ∧ ∀ path fuel, n + 6 ≤ fuel → getLinked db fuel k path = SM.each (fun x => plantLinked (joins path x.1) x.2) fl := by
  induction n generalizing k ns with
  | zero => exact hs.elim
  | succ n ih =>
    rcases hs with ⟨sz, nm, ck, c, m, h1, h2, h3, h4⟩ | ⟨sz, es, h1, h2, h3⟩
    · subst h4
      obtain ⟨ls, hls, hrd⟩ := h3.leaves
      refine ⟨[([], ls)], by simp [Cuts, hls], fun path fuel hf => ?_⟩
      obtain ⟨f, rfl⟩ : ∃ f, fuel = f + 1 := ⟨fuel - 1, by omega⟩
      have hr : ∀ q, readDataTo db (Disk.writeAll q) f ck = SM.each (Disk.writeAll q) ls := fun q => hrd _ _ f (by omega)
      rw [each_single]
      funext fs
      unfold getLinked plantLinked
      simp only [SM.bind_apply, SM.lift_apply, h1, joins_nil, hr]
      cases Path.parent path <;> rfl
    · have hex : ∀ e ∈ es, ∃ fl : Parts, Cuts fl (e.2.2.map (·.node)) ∧ ∀ path fuel, n + 6 ≤ fuel →
          getLinked db fuel e.2.1 path = SM.each (fun x => plantLinked (joins path x.1) x.2) fl := fun e he => ih (h3 e he)
      obtain ⟨L, hL, hP⟩ := choose_list hex
      refine ⟨L.flatMap fun x => x.2.map fun y => (x.1.1 :: y.1, y.2), ?_, fun path fuel hf => ?_⟩
      · subst h2
        unfold Cuts
        simp only [List.map_cons, List.filterMap_cons, Option.map_none]
        subst hL
        clear ih h1 h3 hex
        induction L with
        | nil => rfl
        | cons x L ih =>
          simp only [List.flatMap_cons, List.map_append, List.filterMap_append, List.map_cons]
          rw [ih fun y hy => hP y (by simp [hy])]
          congr 1
          have := (hP x (by simp)).1
          unfold Cuts at this
          have h' := congrArg (List.map fun (z : List Bytes × Bytes) => (x.1.1 :: z.1, z.2)) this
          simp only [List.map_map, List.map_filterMap, List.filterMap_map] at h' ⊢
          refine Eq.trans (by rfl) (h'.trans ?_)
          congr 1
          funext y
          simp [Node.under, Function.comp_def]
      · obtain ⟨f, rfl⟩ : ∃ f, fuel = f + 1 := ⟨fuel - 1, by omega⟩
        have hstep : getLinked db (f + 1) k path = SM.each (fun (c : Key × Path) => getLinked db f c.1 (Path.join path c.2)) ((es.map (·.2.1)).zip (es.map (·.1))) := by
          funext fs
          conv => lhs; unfold getLinked
          simp only [SM.bind_apply, SM.lift_apply, h1]
        rw [hstep]
        have hz : (es.map (·.2.1)).zip (es.map (·.1)) = L.map fun x => (x.1.2.1, x.1.1) := by
          subst hL
          simp only [List.map_map, List.zip_map']
          rfl
        rw [hz, each_map, ← each_flatMap]
        refine each_congr fun x hx => ?_
        rw [(hP x hx).2 _ f (by omega), each_map]
        rfl

theorem dwrites_ok {f : List Bytes} {p : Path} {r : Nat × List Bytes} (ls : List Bytes) {d d' : Disk} {c : Bytes} {md : FileMeta} (hc : d.at f = some (.file c md)) (hl : d.locate p = .ok r)
    (h : SM.each (Disk.writeAll f) ls d = (.ok (), d')) : d'.at f = some (.file (c ++ ls.flatten) md) ∧ d'.locate p = .ok r := by
  induction ls generalizing d c with
  | nil =>
    have : d = d' := congrArg Prod.snd h
    subst this
    simpa using ⟨hc, hl⟩
  | cons b ls ih =>
    have hstep : (Disk.writeAll f b >>= fun _ => SM.each (Disk.writeAll f) ls) d = (.ok (), d') := h
    rw [SM.bind_apply] at hstep
    unfold Disk.writeAll Disk.call at hstep
    split at hstep
    · rename_i t d1 e1
      split at e1
      · simp at e1
      · simp only [SM.modify_apply, Prod.mk.injEq, Res.ok.injEq, true_and] at e1
        subst e1
        have hw : Ways d.toLinkFs (Disk.append f b { d with faults := d.faults.tail }).toLinkFs :=
          append_ways f b { d with faults := d.faults.tail }
        have ha : (Disk.append f b { d with faults := d.faults.tail }).at f = some (.file (c ++ b) md) := by
          unfold Disk.append
          have : LinkFs.at ({ d with faults := d.faults.tail } : Disk).toLinkFs f = some (.file c md) := hc
          rw [this]
          simp only
          rw [dat_set _ (lat_file_ne_root hc), if_pos rfl]
        have := ih ha (ways_locate hw hl) hstep
        simpa using this
    all_goals simp at hstep

/-- One file fetched with success is there, in a place that was vacant. -/
theorem plantLinked_ok {P : Path} {ls : List Bytes} {d d' : Disk} (h : plantLinked P ls d = (.ok (), d')) :
    Adds d d' ∧ ∃ k f md, d.at f = none ∧ d'.locate P = .ok (k, f) ∧ d'.at f = some (.file ls.flatten md) := by
  have hrest : ∀ e, Tracks (fun _ => True) d e → (Disk.createNew P >>= fun f => SM.each (Disk.writeAll f) ls) e = (.ok (), d') →
      Adds d d' ∧ ∃ k f md, d.at f = none ∧ d'.locate P = .ok (k, f) ∧ d'.at f = some (.file ls.flatten md) := by
    intro e ht hr
    have he := ht.adds
    have hadds : Adds d d' := by
      have := (Pres.bind (tracks_createNew (P := fun _ => True) (d0 := d) (p := P) trivial)
        (fun f hf => Pres.each (l := ls) fun b _ => tracks_writeAll hf b) (R := fun _ => True)) e ht
      rw [hr] at this
      exact this.1.adds
    refine ⟨hadds, ?_⟩
    rw [SM.bind_apply] at hr
    split at hr
    · rename_i f e1 h1
      unfold Disk.createNew Disk.call at h1
      split at h1
      · simp at h1
      · simp only at h1
        split at h1
        · rename_i q hq
          split at h1
          · split at h1
            · rename_i hn
              simp only [Prod.mk.injEq, Res.ok.injEq] at h1
              obtain ⟨rfl, rfl⟩ := h1
              generalize hg : ({ e with faults := e.faults.tail } : Disk) = g at hr
              have hge : g.toLinkFs = e.toLinkFs := by rw [← hg]
              have hv : d.at q = none := he.vacant hn
              rw [← hge] at hn hq
              have ha : Adds g (g.set q (.file [] g.nextMeta)) := (Adds.refl _).set hn (Or.inr ⟨_, _, rfl⟩)
              obtain ⟨k, hk⟩ := spotOf_id ha hq hn
              have hc : (g.set q (.file [] g.nextMeta)).at q = some (.file [] g.nextMeta) := by
                rw [dat_set _ (lat_ne_root hn), if_pos rfl]
              obtain ⟨x, y⟩ := dwrites_ok (p := P) (r := (k, q)) ls (d := { g.set q (.file [] g.nextMeta) with metas := g.metas.tail }) (c := []) (md := g.nextMeta) hc hk (by rw [← hg] at hr ⊢; exact hr)
              exact ⟨k, q, g.nextMeta, hv, y, x⟩
            · simp at h1
          · simp at h1
        all_goals simp at h1
    all_goals simp at hr
  unfold plantLinked at h
  cases hpar : Path.parent P with
  | none => rw [hpar] at h; exact hrest d (Tracks.refl d) h
  | some q =>
    rw [hpar] at h
    have h' : (Disk.createDirAll q >>= fun _ => (Disk.createNew P >>= fun f => SM.each (Disk.writeAll f) ls)) d = (.ok (), d') := h
    rw [SM.bind_apply] at h'
    split at h'
    · rename_i u e he
      have := (tracks_createDirAllN (P := fun _ => True) (d0 := d) (q.comps.length + 1) (p := q) (fun _ _ => trivial) d (Tracks.refl d)).1
      have he' : Disk.createDirAllN (q.comps.length + 1) q d = (.ok u, e) := he
      rw [he'] at this
      exact hrest e this h'
    all_goals simp at h'


/-! ### Fetching -/

/-- **C96**: whatever the database, the key and the path, and whatever becomes of it, fetching only adds directories and files: no entry there was, also no link, is changed or removed,
and no link is made. -/
theorem C96_kept (db : Db) (n : Nat) (k : Key) (path : Path) (d : Disk) : Adds d (getLinked db n k path d).2 :=
  (tracks_get (P := fun _ => True) (d0 := d) n k path (fun _ _ _ _ => trivial) d (Tracks.refl d)).1.adds

/-- **C96**: whatever becomes of fetching, each new place is where the path of a file to be fetched leads, through whatever links, or the path of a directory on the way to it. -/
theorem C96_places (db : Db) (n : Nat) (k : Key) (path : Path) (d : Disk) (q : List Bytes) (hq : d.at q = none) (hn : (getLinked db n k path d).2.at q ≠ none) :
    ∃ rel p j, Comes db k rel false ∧ OnWay (joins path rel) p ∧ (getLinked db n k path d).2.locate p = .ok (j, q) := by
  obtain ⟨p, j, ⟨rel, h1, h2⟩, h3⟩ := (tracks_get (P := fun p => ∃ rel, Comes db k rel false ∧ OnWay (joins path rel) p) (d0 := d) n k path
    (fun rel h r hr => ⟨rel, h, hr⟩) d (Tracks.refl d)).1.place q hq hn
  exact ⟨rel, p, j, h1, h2, h3⟩

theorem plants_ok {path : Path} (fl : Parts) {d d' : Disk} (h : SM.each (fun (x : List Bytes × List Bytes) => plantLinked (joins path x.1) x.2) fl d = (.ok (), d')) :
    Adds d d' ∧ ∀ x ∈ fl, ∃ k f md, d.at f = none ∧ d'.locate (joins path x.1) = .ok (k, f) ∧ d'.at f = some (.file x.2.flatten md) := by
  induction fl generalizing d with
  | nil =>
    have : d = d' := congrArg Prod.snd h
    subst this
    exact ⟨Adds.refl d, by simp⟩
  | cons x fl ih =>
    have h' : (plantLinked (joins path x.1) x.2 >>= fun _ => SM.each (fun (x : List Bytes × List Bytes) => plantLinked (joins path x.1) x.2) fl) d = (.ok (), d') := h
    rw [SM.bind_apply] at h'
    split at h'
    · rename_i u e he
      obtain ⟨a1, k, f, md, b1, b2, b3⟩ := plantLinked_ok he
      obtain ⟨a2, hx⟩ := ih h'
      refine ⟨a1.trans a2, fun y hy => ?_⟩
      rcases List.mem_cons.mp hy with rfl | hy
      · exact ⟨k, f, md, b1, adds_locate a2 b2, a2.kept _ _ b3⟩
      · obtain ⟨k, f, md, c1, c2, c3⟩ := hx y hy
        exact ⟨k, f, md, a1.vacant c1, c2, c3⟩
    all_goals simp at h'

/-- **C96**: after fetching a tree with success, each of its files can be read at its path, with the contents that were stored; it is in a place, reached through whatever links, that was vacant. -/
theorem C96_restored {db : Db} {n : Nat} {k : Key} {ns : List KNode} (hs : Snap.Stored db n k ns) {fuel : Nat} (hf : n + 6 ≤ fuel) (path : Path) {d d' : Disk}
    (h : getLinked db fuel k path d = (.ok (), d')) (rel : List Bytes) (c : Bytes) (hrel : (rel, c) ∈ filesOf ns) :
    ∃ q md, d'.metadata (joins path rel) = .ok (.file c md) ∧ d'.canonicalize (joins path rel) = .ok q ∧ d'.at q = some (.file c md) ∧ d.at q = none := by
  obtain ⟨fl, hcuts, hget⟩ := getLinked_stored hs
  have hcuts' : fl.map (fun x => (x.1, x.2.flatten)) = filesOf ns := by
    rw [hcuts, filesOf, List.filterMap_map]; rfl
  rw [hget path fuel hf] at h
  rw [← hcuts'] at hrel
  obtain ⟨x, hx, hxe⟩ := List.mem_map.mp hrel
  simp only [Prod.mk.injEq] at hxe
  obtain ⟨rfl, rfl⟩ := hxe
  obtain ⟨j, f, md, b1, b2, b3⟩ := (plants_ok fl h).2 x hx
  have hcan : d'.canonicalize (joins path x.1) = .ok f := lcanon_iff.mpr ⟨j, _, b2, b3⟩
  exact ⟨f, md, lmeta_iff.mpr ⟨f, hcan, b3⟩, hcan, b3, b1⟩

/-- Names without links lead down. -/
theorem lwalk_down (fs : LinkFs) {L : List Bytes} (hno : ∀ q t, L <+: q → fs.at q ≠ some (.link t)) {l : List Bytes} (hl : ∀ m ∈ l, okName m) {k : Nat} {r : Nat × List Bytes}
    (h : fs.walk k L l = .ok r) : r = (k, L ++ l) := by
  have key : ∀ next, ∀ l cur, L <+: cur → (∀ m ∈ l, okName m) → fs.steps k next cur l = .ok r → r = (k, cur ++ l) := by
    intro next l
    induction l with
    | nil => intro cur _ _ h; simp only [LinkFs.steps, Res.ok.injEq] at h; simp [h]
    | cons s l ih =>
      intro cur hc hl h
      have hs := hl s (by simp)
      simp only [LinkFs.steps] at h
      split at h
      · rw [if_neg (by simp [hs.1, hs.2.1]), if_neg hs.2.2.1] at h
        split at h
        · rename_i t ht
          exact absurd ht (hno _ t (hc.trans (List.prefix_append _ _)))
        · have := ih _ (hc.trans (List.prefix_append _ _)) (fun m hm => hl m (by simp [hm])) h
          simpa using this
      · simp at h
      · simp at h
  cases k with
  | zero => exact key _ l L (List.prefix_refl _) hl h
  | succ k => exact key _ l L (List.prefix_refl _) hl h

/-- **C96**: fetched with success to a place where there is nothing, also no dangling link, the tree is below that place, wherever links on the way to it lead. -/
theorem C96_vacant {db : Db} {n : Nat} {k : Key} {ns : List KNode} (hs : Snap.Stored db n k ns) (ho : ∀ x ∈ ns, ∀ m ∈ x.node.rel, okName m) {fuel : Nat} (hf : n + 6 ≤ fuel)
    (path : Path) {d d' : Disk} {L : List Bytes} (hL : d.spotOf id path = .ok L) (hvac : ∀ q, L <+: q → d.at q = none)
    (h : getLinked db fuel k path d = (.ok (), d')) (rel : List Bytes) (c : Bytes) (hrel : (rel, c) ∈ filesOf ns) : ∃ md, d'.at (L ++ rel) = some (.file c md) := by
  have ha : Adds d d' := by have := C96_kept db fuel k path d; rwa [h] at this
  obtain ⟨q, md, _, h2, h3, _⟩ := C96_restored hs hf path h rel c hrel
  obtain ⟨j, e, h4, _⟩ := lcanon_iff.mp h2
  obtain ⟨j', hj⟩ := spotOf_id ha hL (hvac L (List.prefix_refl _))
  have hp : path ≠ [] := by rintro rfl; simp [LinkFs.spotOf] at hL
  have hok : ∀ m ∈ rel, okName m := by
    obtain ⟨x, hx, hxe⟩ := List.mem_filterMap.mp hrel
    cases hc : x.node.content with
    | none => rw [hc] at hxe; simp at hxe
    | some c' =>
      rw [hc] at hxe
      simp at hxe
      rw [← hxe.1]
      exact ho x hx
  rw [llocate_joins hp hok, hj, Res.ok_bind] at h4
  have := lwalk_down _ (L := L) (fun q t hq ht => by
    rcases ha.new q (hvac q hq) with h | h | ⟨c, md, h⟩ <;> rw [h] at ht <;> simp at ht) hok h4
  simp only [Prod.mk.injEq] at this
  exact ⟨md, this.2 ▸ h3⟩

/-! ### Checking out -/

/-- No link on the way to a place. -/
def Straight (fs : LinkFs) (q : List Bytes) : Prop := ∀ p, p <+: q → ∀ t, fs.at p ≠ some (.link t)

theorem foldl_lexStep_grows (cur : List Bytes) {l : List Bytes} (h47 : ∀ s ∈ l, 47 ∉ s) (hdd : sDotDot ∉ l) : cur <+: l.foldl lexStep cur := by
  induction l generalizing cur with
  | nil => exact List.prefix_refl _
  | cons s l ih =>
    rw [List.foldl_cons]
    refine List.IsPrefix.trans ?_ (ih _ (fun t ht => h47 t (by simp [ht])) (fun h => hdd (by simp [h])))
    rw [lexStep_comp (h47 s (by simp))]
    split
    · exact List.prefix_refl _
    · rw [if_neg (fun h => hdd (by simp [h]))]; exact List.prefix_append _ _

theorem straight_walk {fs : LinkFs} {l cur : List Bytes} (h47 : ∀ s ∈ l, 47 ∉ s) (hdd : sDotDot ∉ l) (hst : Straight fs (l.foldl lexStep cur)) {k : Nat} {r : Nat × List Bytes}
    (h : fs.walk k cur l = .ok r) : r = (k, l.foldl lexStep cur) := by
  have key : ∀ next, ∀ l cur, (∀ s ∈ l, 47 ∉ s) → sDotDot ∉ l → Straight fs (l.foldl lexStep cur) → fs.steps k next cur l = .ok r → r = (k, l.foldl lexStep cur) := by
    intro next l
    induction l with
    | nil => intro cur _ _ _ h; simp only [LinkFs.steps, Res.ok.injEq] at h; simp [h]
    | cons s l ih =>
      intro cur h47 hdd hst h
      have h47' : ∀ t ∈ l, 47 ∉ t := fun t ht => h47 t (by simp [ht])
      have hdd' : sDotDot ∉ l := fun h => hdd (by simp [h])
      rw [List.foldl_cons] at hst ⊢
      rw [lexStep_comp (h47 s (by simp))] at hst ⊢
      simp only [LinkFs.steps] at h
      split at h
      · split at h
        · rename_i h1; rw [if_pos h1] at hst ⊢; exact ih _ h47' hdd' hst h
        · rename_i h1
          rw [if_neg h1] at hst ⊢
          split at h
          · rename_i h2; exact absurd (by simp [h2]) hdd
          · rename_i h2
            rw [if_neg h2] at hst ⊢
            split at h
            · rename_i t ht
              exact absurd ht (hst _ (foldl_lexStep_grows _ h47' hdd') t)
            · exact ih _ h47' hdd' hst h
      · simp at h
      · simp at h
  cases k with
  | zero => exact key _ l cur h47 hdd hst h
  | succ k => exact key _ l cur h47 hdd hst h

theorem dotdot_segs {p : Path} (h : sDotDot ∉ p.comps) : sDotDot ∉ splitSlash p := by
  intro hm
  refine h ?_
  unfold Path.comps
  exact List.mem_append.mpr (Or.inr (List.mem_filter.mpr ⟨hm, by decide⟩))

/-- Without links on the way, a path leads where its text says. -/
theorem straight_locate {fs : LinkFs} {p : Path} (hp : sDotDot ∉ p.comps) (hst : Straight fs (loc fs.cwd p)) {r : Nat × List Bytes} (h : fs.locate p = .ok r) : r.2 = loc fs.cwd p := by
  unfold LinkFs.locate at h
  split at h
  · simp at h
  · split at h
    · simp at h
    · rw [loc_segs] at hst ⊢
      rw [straight_walk (fun s hs => splitSlash_mem hs) (dotdot_segs hp) hst h]

theorem straight_spot {fs : LinkFs} {start segs q : List Bytes} (h47 : ∀ s ∈ segs, 47 ∉ s) (hdd : sDotDot ∉ segs) (hst : Straight fs (segs.dropLast.foldl lexStep start))
    (h : fs.spot start segs = .ok q) : q = segs.foldl lexStep start := by
  rcases List.eq_nil_or_concat segs with rfl | ⟨l, s, hl⟩
  · simpa [LinkFs.spot] using h.symm
  · have hl : segs = l ++ [s] := by simpa using hl
    subst hl
    unfold LinkFs.spot at h
    simp only [List.getLast?_append, List.getLast?_singleton, Option.some_or, List.dropLast_concat] at h hst
    obtain ⟨c, h1, h2⟩ := Res.bind_eq_ok h
    have := straight_walk (fun t ht => h47 t (by simp [ht])) (fun hm => hdd (by simp [hm])) hst h1
    subst this
    simp only at h2
    rw [List.foldl_append]
    simp only [List.foldl_cons, List.foldl_nil]
    split at h2
    · simp only [Res.ok.injEq] at h2
      rw [lexStep_comp (h47 s (by simp)), ← h2]
    · simp at h2
    · simp at h2

/-- The way to the last segment is above the place. -/
theorem straight_dropLast {fs : LinkFs} {start segs : List Bytes} (h47 : ∀ s ∈ segs, 47 ∉ s) (hdd : sDotDot ∉ segs) (hst : Straight fs (segs.foldl lexStep start)) :
    Straight fs (segs.dropLast.foldl lexStep start) := by
  rcases List.eq_nil_or_concat segs with rfl | ⟨l, s, hl⟩
  · exact hst
  · have hl : segs = l ++ [s] := by simpa using hl
    subst hl
    rw [List.dropLast_concat]
    rw [List.foldl_append] at hst
    intro p hp
    exact hst p (hp.trans (foldl_lexStep_grows _ (fun t ht => h47 t (by simp at ht; simp [ht])) (fun hm => hdd (by simp at hm; simp [hm]))))

theorem straight_spotOf {fs : LinkFs} {f : List Bytes → List Bytes} (hf : f = id ∨ f = dropTrailing) {p : Path} (hp : sDotDot ∉ p.comps) (hst : Straight fs (loc fs.cwd p)) {q : List Bytes}
    (h : fs.spotOf f p = .ok q) : q = loc fs.cwd p := by
  have hmem : ∀ s ∈ f (splitSlash p), s ∈ splitSlash p := by
    rcases hf with rfl | rfl
    · exact fun s h => h
    · exact fun s h => dropTrailing_mem h
  have hfold : ∀ cur, (f (splitSlash p)).foldl lexStep cur = (splitSlash p).foldl lexStep cur := by
    rcases hf with rfl | rfl
    · exact fun _ => rfl
    · exact fun cur => foldl_lexStep_dropTrailing cur _
  unfold LinkFs.spotOf at h
  split at h
  · simp at h
  · split at h
    · simp at h
    · rw [loc_segs, ← hfold] at hst ⊢
      have h47 : ∀ s ∈ f (splitSlash p), 47 ∉ s := fun s hs => splitSlash_mem (hmem s hs)
      have hdd : sDotDot ∉ f (splitSlash p) := fun hm => dotdot_segs hp (hmem _ hm)
      exact straight_spot h47 hdd (straight_dropLast h47 hdd hst) h

/-- A name in a directory: only the way to the directory matters. -/
theorem straight_entry {fs : LinkFs} {p : Path} {n : Bytes} (hp0 : p ≠ []) (hp : sDotDot ∉ p.comps) (hn : okName n) (hst : Straight fs (loc fs.cwd p)) {q : List Bytes}
    (h : fs.spotOf id (Path.join p n) = .ok q) : q = loc fs.cwd p ++ [n] := by
  have hcl : sDotDot ∉ (Path.join p n).comps := by
    rw [comps_join hn.comp]
    intro hm
    rcases List.mem_append.mp hm with hm | hm
    · exact hp hm
    · simp at hm; exact hn.2.2.1 hm.symm
  rw [← loc_join _ _ hn]
  unfold LinkFs.spotOf at h
  split at h
  · simp at h
  · split at h
    · simp at h
    · rw [loc_segs]
      refine straight_spot (fun s hs => splitSlash_mem hs) (dotdot_segs hcl) ?_ h
      have hj : loc fs.cwd p ++ [n] = _ := (loc_join fs.cwd p hn).symm.trans (loc_segs _ _)
      obtain ⟨l, hl, e⟩ := splitSlash_join hn.2.2.2.1 hp0
      simp only [id] at *
      rw [e] at hj ⊢
      rw [List.dropLast_concat]
      rw [List.foldl_append] at hj
      simp only [List.foldl_cons, List.foldl_nil] at hj
      rw [lexStep_comp hn.2.2.2.1, if_neg (by simp [hn.1, hn.2.1]), if_neg hn.2.2.1] at hj
      rw [← (List.append_inj' hj rfl).1]
      exact hst


/-- What holds all through a checkout: the places `S` are as they were, no link is new, names are proper. -/
structure Held (S : List Bytes → Prop) (d0 d : Disk) : Prop where
  cwd : d.cwd = d0.cwd
  limit : d.limit = d0.limit
  kept : ∀ q, S q → d.at q = d0.at q
  links : ∀ q t, d.at q = some (.link t) → d0.at q = some (.link t)
  names : ∀ e ∈ d.ents, ∀ n ∈ e.1, okName n

section
variable {S : List Bytes → Prop} {d0 : Disk}

theorem Held.congr {d e : Disk} (h : Held S d0 d) (he : e.toLinkFs = d.toLinkFs) : Held S d0 e := by
  obtain ⟨a, b, c, f, g⟩ := h
  exact ⟨by rw [he]; exact a, by rw [he]; exact b, by rw [he]; exact c, by rw [he]; exact f, by rw [he]; exact g⟩

theorem Held.straight {d : Disk} (h : Held S d0 d) {q : List Bytes} (hq : Straight d0.toLinkFs q) : Straight d.toLinkFs q :=
  fun p hp t ht => hq p hp t (h.links p t ht)

theorem Held.set {d : Disk} (h : Held S d0 d) {q : List Bytes} (hne : q ≠ []) (hS : ¬ S q) (hok : ∀ n ∈ q, okName n) {e : LinkEnt} (he : ∀ t, e ≠ .link t) : Held S d0 (d.set q e) := by
  refine ⟨h.cwd, h.limit, fun x hx => ?_, fun x t hx => ?_, fun x hx => ?_⟩
  · rw [dat_set _ hne, if_neg (by rintro rfl; exact hS hx)]; exact h.kept x hx
  · rw [dat_set _ hne] at hx
    split at hx
    · simp only [Option.some.injEq] at hx; exact absurd hx (he t)
    · exact h.links x t hx
  · unfold Disk.set at hx
    simp only at hx
    split at hx
    · obtain ⟨y, hy, rfl⟩ := List.mem_map.mp hx
      split
      · exact hok
      · exact h.names y hy
    · rcases List.mem_append.mp hx with hx | hx
      · exact h.names x hx
      · simp only [List.mem_singleton] at hx; subst hx; exact hok

theorem dat_only (d : Disk) (keep : List Bytes → Bool) {x : List Bytes} (hx : x ≠ []) : (d.only keep).at x = if keep x then d.at x else none := by
  unfold LinkFs.at Disk.only
  rw [if_neg hx, if_neg hx]
  simp only
  generalize d.ents = l
  induction l with
  | nil => simp
  | cons e l ih =>
    by_cases hk : keep e.1 = true
    · rw [List.filter_cons_of_pos (by simpa using hk), List.find?_cons, List.find?_cons]
      by_cases he : e.1 = x
      · subst he; simp [hk]
      · have : (e.1 == x) = false := by simpa using he
        rw [this]; exact ih
    · rw [List.filter_cons_of_neg (by simpa using hk), List.find?_cons]
      by_cases he : e.1 = x
      · subst he
        have hk' : keep e.1 = false := by simpa using hk
        rw [ih]; simp [hk']
      · have : (e.1 == x) = false := by simpa using he
        rw [this]; exact ih

theorem Held.only {d : Disk} (h : Held S d0 d) {keep : List Bytes → Bool} (hk : ∀ q, S q → keep q = true) : Held S d0 (d.only keep) := by
  refine ⟨h.cwd, h.limit, fun x hx => ?_, fun x t hx => ?_, fun e he => h.names e (List.mem_filter.mp he).1⟩
  · by_cases h0 : x = []
    · subst h0; simp [LinkFs.at]
    · rw [dat_only _ _ h0, hk x hx, if_pos rfl]; exact h.kept x hx
  · by_cases h0 : x = []
    · subst h0; simp [LinkFs.at] at hx
    · rw [dat_only _ _ h0] at hx
      split at hx
      · exact h.links x t hx
      · simp at hx

theorem held_mkdir {p : Path} (hp : sDotDot ∉ p.comps) (hst : Straight d0.toLinkFs (loc d0.cwd p)) (hok : ∀ n ∈ loc d0.cwd p, okName n) (hS : S (loc d0.cwd p) → d0.at (loc d0.cwd p) = some .dir) :
    Pres (Held S d0) (Disk.mkdir p) (fun _ => True) := by
  refine dcall_pres (fun d e he h => h.congr he) (fun _ _ h => h) fun d hd => ⟨?_, fun _ _ => trivial⟩
  cases hs : d.spotOf dropTrailing p with
  | ok q =>
    have hq : q = loc d.cwd p := straight_spotOf (Or.inr rfl) hp (hd.straight (by rw [hd.cwd]; exact hst)) hs
    rw [hd.cwd] at hq
    simp only
    cases ha : d.at q with
    | none =>
      refine hd.set (lat_ne_root ha) (fun h => ?_) (hq ▸ hok) (by simp)
      rw [hd.kept _ h, hq, hS (hq ▸ h)] at ha
      simp at ha
    | some e => exact hd
  | err e => exact hd
  | panic => exact hd
  | fuel => exact hd

theorem held_createDirAllN (n : Nat) {p : Path} (hp : sDotDot ∉ p.comps) (hst : Straight d0.toLinkFs (loc d0.cwd p)) (hok : ∀ n ∈ loc d0.cwd p, okName n)
    (hS : ∀ q, q <+: loc d0.cwd p → S q → d0.at q = some .dir) : Pres (Held S d0) (Disk.createDirAllN n p) (fun _ => True) := by
  have key : ∀ n (q : Path), q.comps <+: p.comps → Pres (Held S d0) (Disk.createDirAllN n q) (fun _ => True) := by
    intro n
    induction n with
    | zero => exact fun q _ s hs => ⟨hs, fun _ _ => trivial⟩
    | succ n ih =>
      intro q hq d hd
      refine ⟨?_, fun _ _ => trivial⟩
      unfold Disk.createDirAllN
      split
      · exact hd
      · rename_i hne
        have hpre := loc_prefix (cwd := d0.cwd) hp hne hq
        have hm : Pres (Held S d0) (Disk.mkdir q) (fun _ => True) :=
          held_mkdir (fun h => hp (hq.subset h)) (fun x hx => hst x (hx.trans hpre)) (fun n hn => hok n (hpre.subset hn)) (hS _ hpre)
        have h1 := (hm d hd).1
        split
        · rename_i d1 e1; rw [e1] at h1; exact h1
        · rename_i d1 e1
          rw [e1] at h1
          cases hpar : Path.parent q with
          | none => exact h1
          | some r =>
            obtain ⟨c, hc⟩ := parent_comps hpar
            have h2 := (ih r ((List.prefix_append _ _).trans (hc ▸ hq)) d1 h1).1
            simp only
            split
            · rename_i d2 e2
              rw [e2] at h2
              have h3 := (hm d2 h2).1
              split
              · rename_i d3 e3; rw [e3] at h3; exact h3
              · rename_i r3 d3 _ e3
                rw [e3] at h3
                split <;> exact h3
            · exact h2
        · rename_i d1 _ _ e1
          rw [e1] at h1
          split <;> exact h1
  exact key n p (List.prefix_refl _)

theorem held_create {p : Path} (hp : sDotDot ∉ p.comps) (hst : Straight d0.toLinkFs (loc d0.cwd p)) (hok : ∀ n ∈ loc d0.cwd p, okName n) (hS : S (loc d0.cwd p) → d0.at (loc d0.cwd p) = some .dir) :
    Pres (Held S d0) (Disk.create p) (fun f => f = loc d0.cwd p) := by
  refine dcall_pres (fun d e he h => h.congr he) (fun _ _ h => h) fun d hd => ?_
  cases hs : d.locate p with
  | ok r =>
    obtain ⟨j, q⟩ := r
    have hq : q = loc d.cwd p := straight_locate hp (hd.straight (by rw [hd.cwd]; exact hst)) hs
    rw [hd.cwd] at hq
    simp only
    split
    · have hset : ∀ x : LinkEnt, (∀ t, x ≠ .link t) → d.at q ≠ some .dir → q ≠ [] → Held S d0 { d.set q x with metas := d.metas.tail } := by
        intro x hx hnd hne
        refine (hd.set hne (fun h => ?_) (hq ▸ hok) hx).congr rfl
        rw [hd.kept _ h, hq] at hnd
        exact hnd (hS (hq ▸ h))
      split
      · rename_i ha
        exact ⟨hset _ (by simp) (by rw [ha]; simp) (lat_ne_root ha), fun f hf => by simp only [Res.ok.injEq] at hf; rw [← hf]; exact hq⟩
      · rename_i c md ha
        exact ⟨hset _ (by simp) (by rw [ha]; simp) (lat_file_ne_root ha), fun f hf => by simp only [Res.ok.injEq] at hf; rw [← hf]; exact hq⟩
      · exact ⟨hd, fun f hf => by simp at hf⟩
    · exact ⟨hd, fun f hf => by simp at hf⟩
  | err e => exact ⟨hd, fun f hf => by simp at hf⟩
  | panic => exact ⟨hd, fun f hf => by simp at hf⟩
  | fuel => exact ⟨hd, fun f hf => by simp at hf⟩

theorem Held.append {d : Disk} (h : Held S d0 d) {f : List Bytes} (hok : ∀ n ∈ f, okName n) (hS : S f → d0.at f = some .dir) (b : Bytes) : Held S d0 (Disk.append f b d) := by
  unfold Disk.append
  split
  · rename_i c md hc
    refine h.set (lat_file_ne_root hc) (fun hs => ?_) hok (by simp)
    rw [h.kept _ hs, hS hs] at hc
    simp at hc
  · exact h

theorem held_writeAll {f : List Bytes} (hok : ∀ n ∈ f, okName n) (hS : S f → d0.at f = some .dir) (b : Bytes) : Pres (Held S d0) (Disk.writeAll f b) (fun _ => True) :=
  dcall_pres (fun d e he h => h.congr he) (fun _ _ h => h.append hok hS _) fun _ hd => ⟨hd.append hok hS _, fun _ _ => trivial⟩

theorem held_remove {path : Path} (hp0 : path ≠ []) (hp : sDotDot ∉ path.comps) (hst : Straight d0.toLinkFs (loc d0.cwd path)) {m : Bytes} (hm : okName m)
    (hS : ∀ q, S q → ¬ (loc d0.cwd path ++ [m]) <+: q) : Pres (Held S d0) (removeLinked path m) (fun _ => True) := by
  have hq : ∀ d, Held S d0 d → ∀ q, d.spotOf id (Path.join path m) = .ok q → q = loc d0.cwd path ++ [m] := by
    intro d hd q h
    have := straight_entry hp0 hp hm (hd.straight (by rw [hd.cwd]; exact hst)) h
    rwa [hd.cwd] at this
  have hne : ∀ x, S x → (x != loc d0.cwd path ++ [m]) = true := by
    intro x hx
    simp only [bne_iff_ne, ne_eq]
    rintro rfl
    exact hS _ hx (List.prefix_refl _)
  have hsub : ∀ x, S x → (loc d0.cwd path ++ [m]).isPrefixOf x = false := by
    intro x hx
    cases h : (loc d0.cwd path ++ [m]).isPrefixOf x with
    | false => rfl
    | true => exact absurd (List.isPrefixOf_iff_prefix.mp h) (hS x hx)
  unfold removeLinked
  split
  · refine Pres.bind (Q := fun _ => True) (Pres.read fun _ _ _ _ => trivial) fun e _ => ?_
    cases e with
    | dir =>
      intro d hd
      refine ⟨?_, fun _ _ => trivial⟩
      simp only [Disk.removeDirAll]
      cases hs : d.spotOf id (Path.join path m) with
      | ok q =>
        have := hq d hd q hs
        subst this
        simp only
        split
        · exact (dcall_pres (Q := fun _ => True) (I := Held S d0) (fun d e he h => h.congr he) (fun _ _ h => h) (fun _ h => ⟨h.only hne, fun _ _ => trivial⟩) d hd).1
        · refine (dcall_pres (Q := fun _ => True) (I := Held S d0) (fun d e he h => h.congr he) (fun n _ h => h.only fun x hx => ?_)
            (fun e h => ⟨Held.only (keep := fun x => !(loc d0.cwd path ++ [m]).isPrefixOf x) h fun x hx => by simp [hsub x hx], fun _ _ => trivial⟩) d hd).1
          simp [hsub x hx]
        · exact hd
        · exact hd
      | err e => exact hd
      | panic => exact hd
      | fuel => exact hd
    | file c md =>
      refine dcall_pres (fun d e he h => h.congr he) (fun _ _ h => h) fun d hd => ⟨?_, fun _ _ => trivial⟩
      cases hs : d.spotOf id (Path.join path m) with
      | ok q =>
        have := hq d hd q hs
        subst this
        simp only
        split
        · exact hd
        · exact hd
        · exact hd.only hne
      | err e => exact hd
      | panic => exact hd
      | fuel => exact hd
    | special => exact Pres.pure trivial
    | link t => exact Pres.pure trivial
  · exact Pres.panic

theorem acceptedLinked_mem {fs : LinkFs} {glob : Path → Bool} {dbPath path : Path} {l r : List Bytes} (h : acceptedLinked fs glob dbPath path l = .ok r) {m : Bytes} (hm : m ∈ r) :
    m ∈ l ∧ fs.filter glob dbPath (Path.join path m) = .ok true := by
  induction l generalizing r with
  | nil => simp only [acceptedLinked, Res.ok.injEq] at h; subst h; simp at hm
  | cons x l ih =>
    unfold acceptedLinked at h
    obtain ⟨b, h1, h2⟩ := Res.bind_eq_ok h
    obtain ⟨r', h3, h4⟩ := Res.bind_eq_ok h2
    simp only [Res.pure_eq, Res.ok.injEq] at h4
    subst h4
    cases b with
    | false =>
      have := ih h3 (by simpa using hm)
      exact ⟨by simp [this.1], this.2⟩
    | true =>
      simp only [if_true, List.mem_cons] at hm
      rcases hm with rfl | hm
      · exact ⟨by simp, h1⟩
      · have := ih h3 hm
        exact ⟨by simp [this.1], this.2⟩

theorem Held.listed {d : Disk} (h : Held S d0 d) {p : Path} {l : List Bytes} (hr : d.readDir p = .ok l) {m : Bytes} (hm : m ∈ l) : okName m := by
  unfold LinkFs.readDir at hr
  obtain ⟨r, _, h2⟩ := Res.bind_eq_ok hr
  split at h2
  · simp only [Res.ok.injEq] at h2
    subst h2
    obtain ⟨e, he, hx⟩ := List.mem_filterMap.mp hm
    split at hx
    · exact h.names e he m (List.mem_of_getLast? hx)
    · simp at hx
  · simp at h2
  · simp at h2

/-- Whatever its outcome, checkout leaves `S` alone. -/
theorem held_checkout {db : Db} {n : Nat} {k : Key} {ns : List KNode} (hs : Snap.Stored db n k ns) (ho : ∀ x ∈ ns, ∀ m ∈ x.node.rel, okName m)
    {fuel : Nat} {glob : Path → Bool} {dbPath : Path} {iter : List Bytes → List Bytes} {path : Path} (hcl : sDotDot ∉ path.comps)
    (hnd : (ns.map fun x => x.node.rel).Nodup) (hiter : ∀ l x, x ∈ iter l → x ∈ l) (hpn : ∀ m ∈ loc d0.cwd path, okName m)
    (hst : ∀ x ∈ ns, Straight d0.toLinkFs (loc d0.cwd path ++ x.node.rel))
    (hS1 : ∀ x ∈ ns, ∀ q, q <+: loc d0.cwd path ++ x.node.rel → S q → d0.at q = some .dir)
    (hS2 : ∀ x ∈ ns, x.node.content = none → ∀ m, okName m → (∃ d, Held S d0 d ∧ d.filter glob dbPath (joins path (x.node.rel ++ [m])) = .ok true) →
      (∀ y ∈ ns, y.node.rel ≠ x.node.rel ++ [m]) → ∀ q, S q → ¬ (loc d0.cwd path ++ x.node.rel ++ [m]) <+: q) :
    Pres (Held S d0) (checkoutLinked db glob dbPath iter fuel k path) (fun _ => True) := by
  induction n generalizing k ns fuel path with
  | zero => exact hs.elim
  | succ n ih =>
    cases fuel with
    | zero => exact Pres.lift fun _ _ => trivial
    | succ fuel =>
      obtain ⟨x0, hx0, hx0r⟩ := stored_root hs
      have hst0 : Straight d0.toLinkFs (loc d0.cwd path) := by simpa [hx0r] using hst x0 hx0
      have hS0 : ∀ q, q <+: loc d0.cwd path → S q → d0.at q = some .dir := by simpa [hx0r] using hS1 x0 hx0
      unfold checkoutLinked
      refine Pres.bind (Q := fun i => getItem db k = .ok i) (Pres.lift fun _ h => h) fun i hi => ?_
      rcases hs with ⟨sz, nm, ck, c, m, h1, h2, h3, rfl⟩ | ⟨sz, es, h1, rfl, h3⟩
      · rw [h1] at hi
        simp only [Res.ok.injEq] at hi
        subst hi
        dsimp only
        refine Pres.bind (held_create hcl hst0 hpn (hS0 _ (List.prefix_refl _))) fun f hf => ?_
        subst hf
        split
        · exact pres_readDataTo db (fun b => held_writeAll hpn (hS0 _ (List.prefix_refl _)) b) _ _
        · exact Pres.panic
      · rw [h1] at hi
        simp only [Res.ok.injEq] at hi
        subst hi
        dsimp only
        have heok : ∀ e ∈ es, okName e.1 := by
          intro e he
          obtain ⟨x, hx, hxr⟩ := stored_root (h3 e he)
          exact ho (x.under e.1) (mem_under he hx) e.1 (by simp)
        simp only [List.map_cons, List.nodup_cons] at hnd
        obtain ⟨hnames, hsub⟩ := stored_names_nodup h3 hnd.2
        refine Pres.bind (Q := fun l => path ≠ [] ∧ ∀ m ∈ l, okName m) (Pres.read fun d l hd hl => ⟨?_, fun m hm => hd.listed hl hm⟩) fun all hall => ?_
        · rintro rfl
          simp [LinkFs.readDir, LinkFs.locate] at hl
        · refine Pres.bind (Q := fun l => ∀ m ∈ l, m ∈ all ∧ ∃ d, Held S d0 d ∧ d.filter glob dbPath (Path.join path m) = .ok true)
            (Pres.read fun d l hd hl m hm => ⟨(acceptedLinked_mem hl hm).1, d, hd, (acceptedLinked_mem hl hm).2⟩) fun mine hmine => ?_
          refine Pres.bind (Q := fun _ => True) (Pres.each fun m hm => ?_) fun _ _ => ?_
          · obtain ⟨hm1, hm2⟩ := List.mem_filter.mp (hiter _ _ hm)
            obtain ⟨hm3, hm4⟩ := hmine m hm1
            have hmok := hall.2 m hm3
            refine held_remove hall.1 hcl hst0 hmok fun q hq => ?_
            have := hS2 _ List.mem_cons_self rfl m hmok (by simpa using hm4) (by
              intro y hy heq
              rcases List.mem_cons.mp hy with rfl | hy
              · simp at heq
              · obtain ⟨e, he, hy⟩ := List.mem_flatMap.mp hy
                obtain ⟨z, hz, rfl⟩ := List.mem_map.mp hy
                simp at heq
                have : (es.map (·.1)).any (fun y => Path.comps y == Path.comps m) = true :=
                  List.any_eq_true.mpr ⟨e.1, List.mem_map_of_mem he, by rw [heq.1]; simp⟩
                rw [this] at hm2; simp at hm2) q hq
            simpa using this
          · have hz : (es.map (·.2.1)).zip (es.map (·.1)) = es.map fun e => (e.2.1, e.1) := zip_map _ _ _
            rw [hz]
            refine Pres.each fun c hc => ?_
            obtain ⟨e, he, rfl⟩ := List.mem_map.mp hc
            refine Pres.bind (Q := fun _ => True) (held_createDirAllN _ hcl hst0 hpn hS0) fun _ _ => ?_
            have heo := heok e he
            have hloc : loc d0.cwd (Path.join path e.1) = loc d0.cwd path ++ [e.1] := loc_join _ _ heo
            refine ih (h3 e he) (fun x hx m hm => ho (x.under e.1) (mem_under he hx) m (by simp [hm])) ?_ (hsub e he) ?_ ?_ ?_ ?_
            · rw [comps_join heo.comp]
              intro hm
              rcases List.mem_append.mp hm with hm | hm
              · exact hcl hm
              · simp at hm; exact heo.2.2.1 hm.symm
            · rw [hloc]
              intro m hm
              rcases List.mem_append.mp hm with hm | hm
              · exact hpn m hm
              · simp at hm; subst hm; exact heo
            · intro x hx
              rw [hloc]
              simpa using hst (x.under e.1) (mem_under he hx)
            · intro x hx q hq
              rw [hloc] at hq
              exact hS1 (x.under e.1) (mem_under he hx) q (by simpa using hq)
            · intro x hx hc m hmo hac hno q hq
              rw [hloc]
              have := hS2 (x.under e.1) (mem_under he hx) (by simpa using hc) m hmo (by simpa using hac) (by
                intro y hy heq
                rcases List.mem_cons.mp hy with rfl | hy
                · simp at heq
                · obtain ⟨e', he', hy⟩ := List.mem_flatMap.mp hy
                  obtain ⟨z, hz, rfl⟩ := List.mem_map.mp hy
                  simp at heq
                  have hee : e' = e := nodup_map_inj hnames he' he heq.1
                  subst hee
                  exact hno z hz heq.2) q hq
              simpa using this

end

/-- **C96**: checking out a tree, whatever becomes of it, when no link is on the way to the directory and none is where the tree has a file or directory: nothing outside the directory changes,
also not where links in it lead; no link is made; and the database folder in it stays as it is, unless the tree has an entry in its place. -/
theorem C96_checkout {db : Db} {n : Nat} {k : Key} {ns : List KNode} (hs : Snap.Stored db n k ns) (ho : ∀ x ∈ ns, ∀ m ∈ x.node.rel, okName m) (hnd : (ns.map fun x => x.node.rel).Nodup)
    (fuel : Nat) (glob : Path → Bool) (dbPath : Path) (iter : List Bytes → List Bytes) (hiter : ∀ l x, x ∈ iter l → x ∈ l) (path : Path) (hcl : sDotDot ∉ path.comps) (d : Disk)
    (hsane : ∀ e ∈ d.ents, ∀ m ∈ e.1, okName m) (hpn : ∀ m ∈ loc d.cwd path, okName m)
    (habove : ∀ q, q <+: loc d.cwd path → q ≠ loc d.cwd path → d.at q = some .dir)
    (htree : ∀ x ∈ ns, ∀ t, d.at (loc d.cwd path ++ x.node.rel) ≠ some (.link t)) :
    (∀ q, ¬ loc d.cwd path <+: q → (checkoutLinked db glob dbPath iter fuel k path d).2.at q = d.at q) ∧
    (∀ q t, (checkoutLinked db glob dbPath iter fuel k path d).2.at q = some (.link t) → d.at q = some (.link t)) ∧
    ∀ x ∈ ns, ∀ m, okName m → (∀ y ∈ ns, y.node.rel ≠ x.node.rel ++ [m]) → sDotDot ∉ dbPath.comps → loc d.cwd dbPath = loc d.cwd path ++ x.node.rel ++ [m] →
      (∀ t, d.at (loc d.cwd dbPath) ≠ some (.link t)) → ∀ q, loc d.cwd dbPath <+: q → (checkoutLinked db glob dbPath iter fuel k path d).2.at q = d.at q := by
  have hst : ∀ x ∈ ns, Straight d.toLinkFs (loc d.cwd path ++ x.node.rel) := by
    intro x hx p hp t
    rcases List.prefix_or_prefix_of_prefix hp (List.prefix_append (loc d.cwd path) x.node.rel) with h | ⟨r, rfl⟩
    · by_cases he : p = loc d.cwd path
      · obtain ⟨x0, hx0, hr⟩ := stored_root hs
        subst he
        simpa [hr] using htree x0 hx0 t
      · rw [habove p h he]; simp
    · obtain ⟨u, hu⟩ := hp
      rw [List.append_assoc] at hu
      obtain ⟨y, hy, hyr⟩ := stored_closed hs hx (List.append_cancel_left hu).symm
      rw [← hyr]
      exact htree y hy t
  have main : ∀ S : List Bytes → Prop, (∀ q, S q → ¬ loc d.cwd path <+: q ∨ ∀ x ∈ ns, ¬ q <+: loc d.cwd path ++ x.node.rel) →
      (∀ x ∈ ns, x.node.content = none → ∀ m, okName m → (∃ e, Held S d e ∧ e.filter glob dbPath (joins path (x.node.rel ++ [m])) = .ok true) →
      (∀ y ∈ ns, y.node.rel ≠ x.node.rel ++ [m]) → ∀ q, S q → ¬ (loc d.cwd path ++ x.node.rel ++ [m]) <+: q) →
      Held S d (checkoutLinked db glob dbPath iter fuel k path d).2 := by
    intro S h1 h2
    refine (held_checkout (S := S) (d0 := d) hs ho hcl hnd hiter hpn hst (fun x hx q hq hS => ?_) h2 d ⟨rfl, rfl, fun _ _ => rfl, fun _ _ h => h, hsane⟩).1
    rcases h1 q hS with h | h
    · rcases List.prefix_or_prefix_of_prefix hq (List.prefix_append (loc d.cwd path) x.node.rel) with h' | h'
      · exact habove q h' (fun he => h (by rw [he]; exact List.prefix_refl _))
      · exact absurd h' h
    · exact absurd hq (h x hx)
  have hout := main (fun q => ¬ loc d.cwd path <+: q) (fun q h => Or.inl h) (fun x _ _ m _ _ _ q hq hp => by
    rw [List.append_assoc] at hp
    exact hq ((List.prefix_append _ _).trans hp))
  refine ⟨hout.kept, hout.links, ?_⟩
  intro x hx m hm hno hdd hD hlink q hq
  refine (main (fun q => loc d.cwd dbPath <+: q) (fun q hq => Or.inr fun y hy hp => ?_) ?_).kept q hq
  · have h := hq.trans hp
    rw [hD, List.append_assoc] at h
    obtain ⟨u, hu⟩ := (List.prefix_append_right_inj _).mp h
    obtain ⟨z, hz, hzr⟩ := stored_closed hs hy hu.symm
    exact hno z hz hzr
  · rintro y hy hyc m' hm' ⟨e, he, hf⟩ hno' q' hq' hp
    rw [hD] at hq'
    rw [List.append_assoc] at hp hq'
    have hsame : x.node.rel ++ [m] = y.node.rel ++ [m'] := by
      rcases List.prefix_or_prefix_of_prefix hp hq' with h | h
      · have h := (List.prefix_append_right_inj _).mp h
        rcases List.prefix_concat_iff.mp h with h | ⟨u, hu⟩
        · exact h.symm
        · obtain ⟨z, hz, hzr⟩ := stored_closed hs hx hu.symm
          exact absurd hzr (hno' z hz)
      · have h := (List.prefix_append_right_inj _).mp h
        rcases List.prefix_concat_iff.mp h with h | ⟨u, hu⟩
        · exact h
        · obtain ⟨z, hz, hzr⟩ := stored_closed hs hy hu.symm
          exact absurd hzr (hno z hz)
    -- the filter rejects the database folder
    obtain ⟨c, cd, g1, g2, g3, _⟩ := lfilter_iff.mp hf
    have hDst : Straight d.toLinkFs (loc d.cwd dbPath) := by
      intro p hp t
      rw [hD] at hp
      rcases List.prefix_concat_iff.mp hp with h | h
      · rw [h, ← hD]; exact hlink t
      · exact hst x hx p h t
    have hcd : cd = loc d.cwd dbPath := by
      obtain ⟨j, _, h1, _⟩ := lcanon_iff.mp g2
      have := straight_locate hdd (he.straight (by rw [he.cwd]; exact hDst)) h1
      rwa [he.cwd] at this
    have hyok : ∀ z ∈ y.node.rel ++ [m'], okName z := by
      intro z hz
      rcases List.mem_append.mp hz with hz | hz
      · exact ho y hy z hz
      · simp at hz; subst hz; exact hm'
    have hpl : loc d.cwd (joins path (y.node.rel ++ [m'])) = loc d.cwd dbPath := by
      rw [loc_joins _ _ hyok, ← hsame, hD, List.append_assoc]
    have hc : c = loc d.cwd dbPath := by
      obtain ⟨j, _, h1, _⟩ := lcanon_iff.mp g1
      have hcl' : sDotDot ∉ (joins path (y.node.rel ++ [m'])).comps := by
        rw [comps_joins _ hyok]
        intro h
        rcases List.mem_append.mp h with h | h
        · exact hcl h
        · exact (hyok _ h).2.2.1 rfl
      have := straight_locate hcl' (he.straight (by rw [he.cwd, hpl]; exact hDst)) h1
      rw [he.cwd, hpl] at this
      exact this
    rw [hcd, hc] at g3
    exact g3 (List.prefix_refl _)

end Snap.Props
