import Verif.Props.LinkStatus
import Verif.Props.WalkCmd
/-!
C89 with links: what `debug walk-fs-tree` prints on a disk with links.
-/
namespace Snap.Props
open Snap
set_option linter.unusedSectionVars false
variable [Serde] [LawfulSerde]

namespace Spec

/-- The way `rel` from `path` goes through entries of directories, links being followed, to a directory (`dir`) or a file. -/
structure LeadsOn (fs : LinkFs) (path : Path) (rel : List Bytes) (dir : Bool) : Prop where
  way : ∀ r n, r ++ [n] <+: rel → ∃ q, fs.canonicalize (joins path r) = .ok q ∧ fs.at q = some .dir ∧ n ∈ fs.names q
  there : ∃ q, fs.canonicalize (joins path rel) = .ok q ∧ ((dir = true ∧ fs.at q = some .dir) ∨ (dir = false ∧ ∃ c md, fs.at q = some (.file c md)))

end Spec

/-- The answers `walk-fs-tree` gets: nothing is left out. -/
def allSights (E : Env) (fs : LinkFs) (glob : Path → Bool) : Sights := { fs.sights E glob [] with take := fun _ _ => .ok true }

theorem leadsOn_iff {E : Env} {fs : LinkFs} {glob : Path → Bool} {path : Path} {rel : List Bytes} {dir : Bool} :
    (∃ w, Goes (allSights E fs glob).toAnswers path rel ∧ IsThere (allSights E fs glob).toAnswers (joins path rel) w ∧ dir = w.isNone) ↔ Spec.LeadsOn fs path rel dir := by
  have hstat : ∀ t p, (allSights E fs glob).stat t p = (fs.answers E glob []).stat t p := fun _ _ => rfl
  have hlist : ∀ t p, (allSights E fs glob).list t p = (fs.answers E glob []).list t p := fun _ _ => rfl
  have hread : ∀ t p, (allSights E fs glob).read t p = (fs.answers E glob []).read t p := fun _ _ => rfl
  constructor
  · rintro ⟨w, h1, h2, rfl⟩
    refine ⟨fun r n hr => ?_, ?_⟩
    · obtain ⟨g1, l, g2, g3, _⟩ := h1 r n hr
      rw [hstat] at g1
      obtain ⟨q, k1, k2⟩ := lstat_dir.mp g1
      rw [hlist, llist k1 k2] at g2
      simp only [Res.ok.injEq] at g2
      subst g2
      exact ⟨q, k1, k2, by simpa using g3⟩
    · cases w with
      | none =>
        obtain ⟨q, k1, k2⟩ := lstat_dir.mp (show (fs.answers E glob []).stat 0 _ = _ from h2)
        exact ⟨q, k1, .inl ⟨rfl, k2⟩⟩
      | some x =>
        obtain ⟨q, c, md, k1, k2, _⟩ := lstat_file.mp (show (fs.answers E glob []).stat 0 _ = _ from h2.1)
        exact ⟨q, k1, .inr ⟨rfl, c, md, k2⟩⟩
  · rintro ⟨h1, q, h2, h3⟩
    have hg : Goes (allSights E fs glob).toAnswers path rel := fun r n hr => by
      obtain ⟨q, k1, k2, k3⟩ := h1 r n hr
      exact ⟨(hstat _ _).trans (lstat_dir.mpr ⟨q, k1, k2⟩), _, (hlist _ _).trans (llist k1 k2), by simpa using k3, rfl⟩
    rcases h3 with ⟨rfl, h3⟩ | ⟨rfl, c, md, h3⟩
    · exact ⟨none, hg, (hstat _ _).trans (lstat_dir.mpr ⟨q, h2, h3⟩), rfl⟩
    · exact ⟨some (c.length, E.rd (joins path rel) c), hg, ⟨(hstat _ _).trans (lstat_file.mpr ⟨q, c, md, h2, h3, rfl⟩), (hread _ _).trans (lread h2 h3)⟩, rfl⟩

theorem leadsOn_names {fs : LinkFs} (hs : fs.Sane) {path : Path} {rel : List Bytes} {dir : Bool} (h : Spec.LeadsOn fs path rel dir) : ∀ n ∈ rel, okName n := by
  intro n hn
  obtain ⟨a, b, rfl⟩ := List.append_of_mem hn
  obtain ⟨q, _, _, g⟩ := h.way a n ⟨b, by simp⟩
  exact lname_ok hs g

theorem leadsOn_kind {fs : LinkFs} {path : Path} {rel : List Bytes} {a b : Bool} (h : Spec.LeadsOn fs path rel a) (h' : Spec.LeadsOn fs path rel b) : a = b := by
  obtain ⟨-, q, h1, h2⟩ := h
  obtain ⟨-, q', g1, g2⟩ := h'
  rw [h1] at g1
  simp only [Res.ok.injEq] at g1
  subst g1
  rcases h2 with ⟨rfl, h2⟩ | ⟨rfl, c, md, h2⟩ <;> rcases g2 with ⟨rfl, g2⟩ | ⟨rfl, c', md', g2⟩ <;> first | rfl | (rw [h2] at g2; simp at g2)

theorem walk_all {σ : Type} {E : Env} {fs : LinkFs} (hs : fs.Sane) {glob : Path → Bool} {path : Path} {n : Nat} {s s' : σ × Nat} {m : PMap Bool}
    (h : walkLive (allSights E fs glob) path n [] s = (.ok m, s')) :
    m.Ok ∧ ∀ p d, (p, d) ∈ m ↔ ∃ rel, rel ≠ [] ∧ Spec.LeadsOn fs path rel d ∧ p = relPath rel := by
  have hb : path ≠ [] := by
    rintro rfl
    cases n with
    | zero => simp [walkLive] at h
    | succ n =>
      unfold walkLive at h
      obtain ⟨e, s1, h1, _⟩ := bind_ok h
      have : (fs.answers E glob []).stat s.2 (Path.join [] []) = .ok e := (Prod.mk.injEq _ _ _ _ ▸ h1).1
      have hx : Path.join [] [] = [] := rfl
      rw [hx] at this
      simp [LinkFs.answers, LinkFs.metadata, LinkFs.locate, Res.bind] at this
  have hT : Timeless (allSights E fs glob).toAnswers := ⟨fun _ _ => rfl, fun _ _ => rfl, fun _ _ => rfl, fun _ _ => rfl⟩
  have hF : Fixed (allSights E fs glob) := ⟨hT, fun _ _ => rfl, (fixed_links (fs := fs) (E := E) (glob := glob) (dbPath := [])).file⟩
  obtain ⟨_, okm, L, l1, l2, l3⟩ := walk_look (pre := []) hF (lproper hs E glob []) hb (lslash_stat (glob := glob) (dbPath := []) (E := E) hb) (by simp) (s := s.1) (t := s.2) (s' := s'.1) (t' := s'.2) h
  obtain ⟨t', hl⟩ := l1 0
  have hmem : ∀ x ∈ L, Spec.LeadsOn fs path x.rel x.what.isNone := fun x hx => by
    obtain ⟨g1, g2⟩ := (look_iff hT hl x).mp hx
    exact leadsOn_iff.mp ⟨x.what, g1, g2, rfl⟩
  refine ⟨okm, fun p d => ⟨fun he => ?_, ?_⟩⟩
  · obtain ⟨x, hx, g1, g2, g3⟩ := l2 _ he
    exact ⟨x.rel, by simpa using g1, by rw [show d = _ from g3]; exact hmem x hx, by simpa using g2⟩
  · rintro ⟨rel, hne, hL, rfl⟩
    obtain ⟨w, g1, g2, rfl⟩ := leadsOn_iff (E := E) (glob := glob).mpr hL
    have hx := (look_iff hT hl ⟨rel, w⟩).mpr ⟨g1, g2⟩
    obtain ⟨d, hd⟩ := mem_keys.mp (l3 _ hx (by simpa using hne))
    obtain ⟨y, hy, k1, k2, k3⟩ := l2 _ hd
    simp only [List.nil_append] at k2 hd
    have hr := relPath_inj (fun m hm => (leadsOn_names hs hL m hm).comp) (fun m hm => (leadsOn_names hs (hmem y hy) m hm).comp) k2
    have hy' := hmem y hy
    rw [← hr] at hy'
    have := leadsOn_kind hL hy'
    rw [this, ← show d = _ from k3]
    exact hd

/-- How `debug walk-fs-tree` ends well, with or without a repository. -/
theorem walkFs_out {X : Ctx} {path : Path} {w : LinkWorld} (h : (mainLinked X (.walkFsTree path) w).1 = .success) :
    ∃ s : Sys, s.out = [] ∧ (walkFsLinked X path (s, w.disk)).1 = .ok () ∧ (mainLinked X (.walkFsTree path) w).2.1 = (walkFsLinked X path (s, w.disk)).2.1.out := by
  have hex : ∀ {r : Res Unit} {c : Bool}, exitOf r c = .success → r = .ok () := by
    intro r c h
    cases r <;> first | rfl | (cases c <;> simp [exitOf] at h)
  unfold mainLinked at h ⊢
  cases hf : findLinked w.disk.toLinkFs X.dbPath with
  | ok found =>
    rw [hf] at h
    cases found with
    | none => exact ⟨{ db := {}, cache := w.cache }, rfl, hex h, rfl⟩
    | some x =>
      simp only at h ⊢
      cases hp : Path.parent x with
      | none => rw [hp] at h; simp at h
      | some root =>
        rw [hp] at h
        simp only at h ⊢
        cases hq : openLinked w.disk.toLinkFs x with
        | ok q =>
          rw [hq] at h
          exact ⟨{ db := w.dbs q, cache := w.cache }, rfl, hex h, rfl⟩
        | _ => rw [hq] at h; simp [Bind.bind, Res.bind] at h
  | _ => rw [hf] at h; simp at h

/-- **C89** (with links): `debug walk-fs-tree` prints, if it ends well, one line for each way on from the directory through entries of directories, links being followed, and no other. -/
theorem C89_links (X : Ctx) (hiter : ∀ i l, (X.iter i l).Perm l) (w : LinkWorld) (hs : w.disk.toLinkFs.Sane) (path : Path) (h : (mainLinked X (.walkFsTree path) w).1 = .success) :
    Spec.Prints (mainLinked X (.walkFsTree path) w).2.1 (fun rel d => .fsItem (relPath rel) d) (fun rel d => rel ≠ [] ∧ Spec.LeadsOn w.disk.toLinkFs path rel d) := by
  obtain ⟨s, hso, h1, h2⟩ := walkFs_out h
  rw [h2]
  have h1' : walkFsLinked X path (s, w.disk) = (.ok (), (walkFsLinked X path (s, w.disk)).2) := Prod.ext h1 rfl
  generalize (walkFsLinked X path (s, w.disk)).2 = s' at h1'
  unfold walkFsLinked at h1'
  obtain ⟨m, s1, g1, g2⟩ := bind_ok h1'
  simp only [SM.read_apply, Prod.mk.injEq] at g1
  obtain ⟨g1, rfl⟩ := g1
  obtain ⟨hok, hm⟩ := walk_all (E := X.E) (glob := X.glob) (n := X.depth) (path := path) (s := ((), 0)) hs (Prod.ext (by exact g1) rfl)
  obtain ⟨L, hL, hrun⟩ := emitAll_ok (hiter 3) hok Out.fsItem s
  have e : s'.1.out = L.map fun x => .fsItem x.1 x.2 := by
    simp only [SM.fst, hrun, hso, Prod.mk.injEq] at g2
    rw [← g2.2]
    rfl
  rw [e]
  have hc : ∀ x ∈ L, ∃ rel, rel ≠ [] ∧ Spec.LeadsOn w.disk.toLinkFs path rel x.2 ∧ x.1 = relPath rel ∧ Path.comps x.1 = rel := fun x hx => by
    obtain ⟨rel, a1, a2, a3⟩ := (hm x.1 x.2).mp (hL.mem_iff.mp hx)
    exact ⟨rel, a1, a2, a3, by rw [a3, comps_relPath fun m hm => (leadsOn_names hs a2 m hm).comp]⟩
  refine ⟨L.map fun x => (Path.comps x.1, x.2), ?_, ?_, fun rel d => ⟨fun hx => ?_, ?_⟩⟩
  · rw [List.map_map]
    refine List.map_congr_left fun x hx => ?_
    obtain ⟨rel, _, _, a3, a4⟩ := hc x hx
    simp only [Function.comp]
    rw [a4, ← a3]
  · rw [List.map_map]
    have hn : (L.map (·.1)).Nodup := (hL.map _).nodup_iff.mpr hok.1
    rw [List.nodup_iff_pairwise_ne, List.pairwise_map] at hn ⊢
    refine hn.imp_of_mem fun {a b} ha hb hab hcomp => hab ?_
    obtain ⟨_, _, _, a3, a4⟩ := hc a ha
    obtain ⟨_, _, _, b3, b4⟩ := hc b hb
    simp only [Function.comp] at hcomp
    rw [a3, b3, ← a4, ← b4, hcomp]
  · obtain ⟨x, hx, e⟩ := List.mem_map.mp hx
    obtain ⟨rel', a1, a2, a3, a4⟩ := hc x hx
    simp only [Prod.mk.injEq] at e
    obtain ⟨e1, rfl⟩ := e
    rw [← e1, a4]
    exact ⟨a1, a2⟩
  · rintro ⟨a1, a2⟩
    have := hL.mem_iff.mpr ((hm (relPath rel) d).mpr ⟨rel, a1, a2, rfl⟩)
    exact List.mem_map.mpr ⟨_, this, by rw [comps_relPath fun m hm => (leadsOn_names hs a2 m hm).comp]⟩

end Snap.Props
