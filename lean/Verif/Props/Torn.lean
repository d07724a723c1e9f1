import Verif.Props.Fetchable
/-! Property C99: where a `fetch` or `checkout` that does not end well has got to, and what doing it again does. A killed process is covered too: the failing call is where it was killed. -/
namespace Snap.Props
open Snap
set_option linter.unusedSectionVars false
variable [Serde] [LawfulSerde]

/-- How far writing the files has got (each given with its location and the contents it is to have): the first ones are written; of at most one, a beginning is written;
at the place of the others is what was there before. -/
def Spec.Halfway (old new : AtFn) (files : List (List Bytes × Bytes)) : Prop :=
  ∃ done cur rest, files = done ++ cur ++ rest ∧ cur.length ≤ 1 ∧ (∀ x ∈ done, ∃ md, new x.1 = some (.file x.2 md)) ∧
    (∀ x ∈ cur, new x.1 = old x.1 ∨ ∃ c md, c <+: x.2 ∧ new x.1 = some (.file c md)) ∧ ∀ x ∈ rest, new x.1 = old x.1

theorem halfway_none {old new : AtFn} {files : List (List Bytes × Bytes)} (h : ∀ x ∈ files, new x.1 = old x.1) : Spec.Halfway old new files :=
  ⟨[], [], files, by simp, by simp, by simp, by simp, h⟩

theorem halfway_all {old new : AtFn} {files : List (List Bytes × Bytes)} (h : ∀ x ∈ files, ∃ md, new x.1 = some (.file x.2 md)) : Spec.Halfway old new files :=
  ⟨files, [], [], by simp, by simp, h, by simp, by simp⟩

/-- Writing the files of several things one after the other. -/
theorem each_halfway {α : Type} {f : α → SM Fs Unit} {files : α → List (List Bytes × Bytes)} {I : Fs → Prop} {l : List α} (hI : ∀ a ∈ l, ∀ s, I s → I (f a s).2)
    (h1 : ∀ a ∈ l, ∀ s, I s → Spec.Halfway s.at (f a s).2.at (files a))
    (h2 : ∀ a ∈ l, ∀ s, I s → (f a s).1 = .ok () → ∀ x ∈ files a, ∃ md, (f a s).2.at x.1 = some (.file x.2 md))
    (h3 : l.Pairwise fun a b => (∀ s, I s → ∀ x ∈ files b, (f a s).2.at x.1 = s.at x.1) ∧ ∀ s, I s → ∀ x ∈ files a, (f b s).2.at x.1 = s.at x.1) {s : Fs} (hs : I s) :
    I (SM.each f l s).2 ∧ Spec.Halfway s.at (SM.each f l s).2.at (l.flatMap files) ∧
      ((SM.each f l s).1 = .ok () → ∀ x ∈ l.flatMap files, ∃ md, (SM.each f l s).2.at x.1 = some (.file x.2 md)) ∧
      ∀ q, (∀ a ∈ l, ∀ s, I s → (f a s).2.at q = s.at q) → (SM.each f l s).2.at q = s.at q := by
  induction l generalizing s with
  | nil => exact ⟨hs, halfway_none (by simp), fun _ => by simp, fun _ _ => rfl⟩
  | cons a l ih =>
    have he : SM.each f (a :: l) s = (f a >>= fun _ => SM.each f l) s := rfl
    rw [SM.bind_apply] at he
    have i1 := hI a (by simp) s hs
    have j1 := h1 a (by simp) s hs
    have k1 := h2 a (by simp) s hs
    rw [List.pairwise_cons] at h3
    have stop : Spec.Halfway s.at (f a s).2.at ((a :: l).flatMap files) := by
      obtain ⟨dn, cur, rest, e, hl, g1, g2, g3⟩ := j1
      refine ⟨dn, cur, rest ++ l.flatMap files, by simp [List.flatMap_cons, e], hl, g1, g2, fun x hx => ?_⟩
      rcases List.mem_append.mp hx with hx | hx
      · exact g3 x hx
      · obtain ⟨b, hb, hx⟩ := List.mem_flatMap.mp hx
        exact (h3.1 b hb).1 s hs x hx
    have hq1 : ∀ q, (∀ b ∈ a :: l, ∀ s, I s → (f b s).2.at q = s.at q) → (f a s).2.at q = s.at q := fun q hq => hq a (by simp) s hs
    rw [he]
    cases hr : f a s with
    | mk r s1 =>
      rw [hr] at i1 j1 k1 stop hq1
      cases r with
      | ok u =>
        obtain ⟨m1, m2, m3, m4⟩ := ih (fun b hb => hI b (by simp [hb])) (fun b hb => h1 b (by simp [hb])) (fun b hb => h2 b (by simp [hb])) h3.2 (s := s1) i1
        have keep : ∀ x ∈ files a, (SM.each f l s1).2.at x.1 = s1.at x.1 := fun x hx => m4 x.1 fun b hb t ht => (h3.1 b hb).2 t ht x hx
        have hdone : ∀ x ∈ files a, ∃ md, (SM.each f l s1).2.at x.1 = some (.file x.2 md) := by
          intro x hx
          rw [keep x hx]
          exact k1 rfl x hx
        refine ⟨m1, ?_, fun hok x hx => ?_, fun q hq => ?_⟩
        · obtain ⟨dn, cur, rest, e, hl, g1, g2, g3⟩ := m2
          have hback : ∀ x ∈ l.flatMap files, s1.at x.1 = s.at x.1 := by
            intro x hx
            obtain ⟨b, hb, hx⟩ := List.mem_flatMap.mp hx
            have := (h3.1 b hb).1 s hs x hx
            rwa [hr] at this
          refine ⟨files a ++ dn, cur, rest, by simp [List.flatMap_cons, e], hl, fun x hx => ?_, fun x hx => ?_, fun x hx => ?_⟩
          · rcases List.mem_append.mp hx with hx | hx
            · exact hdone x hx
            · exact g1 x hx
          · rw [← hback x (by rw [e]; simp [hx])]; exact g2 x hx
          · rw [← hback x (by rw [e]; simp [hx])]; exact g3 x hx
        · rw [List.flatMap_cons] at hx
          rcases List.mem_append.mp hx with hx | hx
          · exact hdone x hx
          · exact m3 hok x hx
        · show (SM.each f l s1).2.at q = _
          rw [m4 q fun b hb => hq b (by simp [hb])]
          exact hq1 q hq
      | err e => exact ⟨i1, stop, fun h => by simp at h, hq1⟩
      | panic => exact ⟨i1, stop, fun h => by simp at h, hq1⟩
      | fuel => exact ⟨i1, stop, fun h => by simp at h, hq1⟩

/-- Whatever the outcome, after writing the pieces to a file it holds a beginning of them, and nothing else has changed. -/
theorem each_writeAll_part {fs : Fs} {q : List Bytes} {c : Bytes} {md : FileMeta} (ha : fs.at q = some (.file c md)) (ls : List Bytes) :
    ∃ t, t <+: ls.flatten ∧ (SM.each (Fs.writeAll q) ls fs).2.cwd = fs.cwd ∧ (SM.each (Fs.writeAll q) ls fs).2.at = upd fs.at q (.file (c ++ t) md) := by
  induction ls generalizing fs c with
  | nil =>
    refine ⟨[], by simp, rfl, ?_⟩
    show fs.at = _
    funext x
    unfold upd
    split
    · rename_i h; subst h; simpa using ha
    · rfl
  | cons d ls ih =>
    have hq := at_file_ne_root ha
    have happ : ∀ (g : Fs) (d : Bytes), g.at = fs.at → g.cwd = fs.cwd → (Fs.append q d g).at = upd fs.at q (.file (c ++ d) md) ∧ (Fs.append q d g).cwd = fs.cwd := by
      intro g d hg hgc
      unfold Fs.append
      rw [hg, ha]
      exact ⟨by rw [← hg]; exact at_set' _ hq _, hgc⟩
    have good : ∀ fl : List (Option Nat), ∃ t, t <+: (d :: ls).flatten ∧ (SM.each (Fs.writeAll q) ls (Fs.append q d { fs with faults := fl })).2.cwd = fs.cwd ∧
        (SM.each (Fs.writeAll q) ls (Fs.append q d { fs with faults := fl })).2.at = upd fs.at q (.file (c ++ t) md) := by
      intro fl
      obtain ⟨g1, g2⟩ := happ { fs with faults := fl } d rfl rfl
      obtain ⟨t, e1, e2, e3⟩ := ih (fs := Fs.append q d { fs with faults := fl }) (c := c ++ d) (by rw [g1]; simp [upd])
      refine ⟨d ++ t, ?_, ?_, ?_⟩
      · rw [List.flatten_cons]; exact (List.prefix_append_right_inj _).mpr e1
      · exact e2.trans g2
      · refine e3.trans ?_
        rw [g1]
        funext x
        unfold upd
        split
        · simp
        · rfl
    have he : SM.each (Fs.writeAll q) (d :: ls) fs = (Fs.writeAll q d >>= fun _ => SM.each (Fs.writeAll q) ls) fs := rfl
    rw [he, SM.bind_apply]
    have hwr : Fs.writeAll q d fs = match fs.faults with
        | some n :: t => (.err .io, Fs.append q (d.take n) { fs with faults := t })
        | _ => (.ok (), Fs.append q d { fs with faults := fs.faults.tail }) := by
      unfold Fs.writeAll Fs.call
      rcases fs.faults with _ | ⟨_ | n, t⟩ <;> rfl
    rw [hwr]
    rcases hfl : fs.faults with _ | ⟨_ | n, t⟩
    · exact good _
    · exact good _
    · obtain ⟨g1, g2⟩ := happ { fs with faults := t } (d.take n) rfl rfl
      exact ⟨d.take n, (List.take_prefix _ _).trans (by simp), g2, g1⟩

/-- What opening a new file does. -/
theorem createNew_any (fs : Fs) (P : Path) :
    (∃ q md, (Fs.createNew P fs).1 = .ok q ∧ q = loc fs.cwd P ∧ (Fs.createNew P fs).2.cwd = fs.cwd ∧ (Fs.createNew P fs).2.at = upd fs.at q (.file [] md)) ∨
    ((∀ q, (Fs.createNew P fs).1 ≠ .ok q) ∧ (Fs.createNew P fs).2.cwd = fs.cwd ∧ (Fs.createNew P fs).2.at = fs.at) := by
  have good : ∀ fl : List (Option Nat), ∀ x, (x = (fun fs : Fs => match fs.locate P with
      | .ok q =>
        if P.lastIsName then
          match fs.at q with
          | none => ((.ok q : Res (List Bytes)), { fs.set q (.file [] fs.nextMeta) with metas := fs.metas.tail })
          | some _ => (.err .io, fs)
        else (.err .io, fs)
      | .err e => (.err e, fs)
      | .panic => (.panic, fs)
      | .fuel => (.fuel, fs)) { fs with faults := fl }) →
      (∃ q md, x.1 = .ok q ∧ q = loc fs.cwd P ∧ x.2.cwd = fs.cwd ∧ x.2.at = upd fs.at q (.file [] md)) ∨ ((∀ q, x.1 ≠ .ok q) ∧ x.2.cwd = fs.cwd ∧ x.2.at = fs.at) := by
    rintro fl x rfl
    dsimp only
    have hat : ({ fs with faults := fl } : Fs).at = fs.at := rfl
    cases hl : ({ fs with faults := fl } : Fs).locate P with
    | ok q =>
      dsimp only
      split
      · rw [hat]
        cases ha : fs.at q with
        | none => exact .inl ⟨q, _, rfl, (locate_loc hl : q = loc ({ fs with faults := fl } : Fs).cwd P), rfl, at_set' { fs with faults := fl } (at_ne_root ha) _⟩
        | some e => exact .inr ⟨by simp, rfl, rfl⟩
      · exact .inr ⟨by simp, rfl, rfl⟩
    | err e => exact .inr ⟨by simp, rfl, rfl⟩
    | panic => exact .inr ⟨by simp, rfl, rfl⟩
    | fuel => exact .inr ⟨by simp, rfl, rfl⟩
  unfold Fs.createNew Fs.call
  rcases hf : fs.faults with _ | ⟨_ | n, t⟩
  · exact good _ _ rfl
  · exact good _ _ rfl
  · exact .inr ⟨by simp, rfl, rfl⟩

/-- The first step of writing a file: creating the directories it is in. -/
theorem plantOne_way (P : Path) (ls : List Bytes) : ∃ x : SM Fs Unit, plantOne P ls = (x >>= fun _ => Fs.createNew P >>= fun f => SM.each (Fs.writeAll f) ls) ∧
    ∀ (cwd : List Bytes) (J : AtFn → Prop), (∀ p : Path, p.comps ≠ [] → (∃ c r, P.comps = p.comps ++ c :: r) → ∀ a, J a → a (loc cwd p) = none → J (upd a (loc cwd p) .dir)) →
      Pres (TreeInv cwd J) x (fun _ => True) := by
  refine ⟨_, plantOne_eq P ls, fun cwd J h => ?_⟩
  cases hp : Path.parent P with
  | none => exact Pres.pure trivial
  | some q =>
    refine pres_createDirAllN' _ fun p h0 hpq a ha hn => h p h0 ?_ a ha hn
    obtain ⟨c, hc⟩ := parent_comps hp
    obtain ⟨t, ht⟩ := hpq
    rw [hc, ← ht]
    cases t with
    | nil => exact ⟨c, [], by simp⟩
    | cons x t => exact ⟨x, t ++ [c], by simp⟩

/-- Something that holds of the tree of files, and that creating the directories a file is in, creating it and writing to it keep. -/
theorem pres_plantOne {cwd : List Bytes} {J : AtFn → Prop} {P : Path} {ls : List Bytes}
    (hd : ∀ p : Path, p.comps ≠ [] → (∃ c r, P.comps = p.comps ++ c :: r) → ∀ a, J a → a (loc cwd p) = none → J (upd a (loc cwd p) .dir))
    (hf : ∀ a c md, J a → a (loc cwd P) = none ∨ (∃ c md, a (loc cwd P) = some (.file c md)) → J (upd a (loc cwd P) (.file c md))) :
    Pres (TreeInv cwd J) (plantOne P ls) (fun _ => True) := by
  obtain ⟨x, hpl, hx⟩ := plantOne_way P ls
  rw [hpl]
  refine Pres.bind (hx cwd J hd) fun _ _ => Pres.bind (pres_createNew fun a md ha hn => hf a [] md ha (.inl hn)) ?_
  rintro f ⟨rfl, _⟩
  exact Pres.each fun d _ => pres_writeAll (fun a c md d ha h => hf a _ md ha (.inr ⟨c, md, h⟩)) d

/-- A location that is not on the way to a file is not touched by writing it. -/
theorem plantOne_other (fs : Fs) (P : Path) (ls : List Bytes) (Y : List Bytes) (h1 : Y ≠ loc fs.cwd P)
    (h2 : ∀ p : Path, p.comps ≠ [] → (∃ c r, P.comps = p.comps ++ c :: r) → Y ≠ loc fs.cwd p) : (plantOne P ls fs).2.at Y = fs.at Y := by
  have := pres_plantOne (cwd := fs.cwd) (J := fun a => a Y = fs.at Y) (P := P) (ls := ls)
    (fun p h0 hp a ha _ => by show upd a _ _ Y = _; unfold upd; rw [if_neg (h2 p h0 hp)]; exact ha)
    (fun a c md ha _ => by show upd a _ _ Y = _; unfold upd; rw [if_neg h1]; exact ha)
  exact (this fs ⟨rfl, rfl⟩).1.2

/-- Whatever becomes of writing one file: what was at its place is still there, or a beginning of the file; all of it if this ends well. -/
theorem plantOne_half (fs : Fs) (P : Path) (ls : List Bytes) (h2 : ∀ p : Path, p.comps ≠ [] → (∃ c r, P.comps = p.comps ++ c :: r) → loc fs.cwd P ≠ loc fs.cwd p) :
    ((plantOne P ls fs).2.at (loc fs.cwd P) = fs.at (loc fs.cwd P) ∨ ∃ c md, c <+: ls.flatten ∧ (plantOne P ls fs).2.at (loc fs.cwd P) = some (.file c md)) ∧
    ((plantOne P ls fs).1 = .ok () → ∃ md, (plantOne P ls fs).2.at (loc fs.cwd P) = some (.file ls.flatten md)) := by
  obtain ⟨x, hpl, hx⟩ := plantOne_way P ls
  have hx := hx fs.cwd (fun a => a (loc fs.cwd P) = fs.at (loc fs.cwd P)) fun p h0 hp a ha _ => by
    show upd a _ _ _ = _; unfold upd; rw [if_neg (h2 p h0 hp)]; exact ha
  have h0 := (hx fs ⟨rfl, rfl⟩).1
  rw [hpl, SM.bind_apply]
  generalize x fs = y at h0 ⊢
  obtain ⟨r, fs1⟩ := y
  have hcwd : fs1.cwd = fs.cwd := h0.1
  have hat : fs1.at (loc fs.cwd P) = fs.at (loc fs.cwd P) := h0.2
  cases r with
  | ok u =>
    dsimp only
    rw [SM.bind_apply]
    rcases createNew_any fs1 P with ⟨q, md, g1, g2, g3, g4⟩ | ⟨g1, g2, g3⟩
    · generalize Fs.createNew P fs1 = z at g1 g3 g4 ⊢
      obtain ⟨r, fs2⟩ := z
      simp only at g1 g3 g4
      subst g1
      rw [hcwd] at g2
      subst g2
      dsimp only
      have hf : fs2.at (loc fs.cwd P) = some (.file [] md) := by rw [g4]; simp [upd]
      obtain ⟨t, e1, e2, e3⟩ := each_writeAll_part hf ls
      refine ⟨.inr ⟨t, md, e1, by rw [e3]; simp [upd]⟩, fun hok => ⟨md, ?_⟩⟩
      obtain ⟨_, k⟩ := each_writeAll_ok hf (Prod.ext hok rfl : SM.each (Fs.writeAll (loc fs.cwd P)) ls fs2 = (.ok (), _))
      rw [k]
      simp [upd]
    · generalize Fs.createNew P fs1 = z at g1 g2 g3 ⊢
      obtain ⟨r, fs2⟩ := z
      simp only at g1 g2 g3
      cases r with
      | ok q => exact absurd rfl (g1 q)
      | _ => exact ⟨.inl (by show fs2.at _ = _; rw [g3]; exact hat), fun h => by simp at h⟩
  | _ => exact ⟨.inl hat, fun h => by simp at h⟩

/-- The directories on the way to a clean path are strictly above it. -/
theorem loc_above {cwd : List Bytes} {P p : Path} (hcl : sDotDot ∉ P.comps) (h0 : p.comps ≠ []) {c : Bytes} {r : List Bytes} (h : P.comps = p.comps ++ c :: r) :
    loc cwd P = loc cwd p ++ c :: r := by
  obtain ⟨hd, t, hs, hd', ht⟩ := comps_shape P
  have hrt : ∀ s ∈ c :: r, okComp s ∧ s ≠ sDotDot := by
    intro s hsr
    have hdd : s ≠ sDotDot := by rintro rfl; exact hcl (by rw [h]; exact List.mem_append_right _ hsr)
    refine ⟨?_, hdd⟩
    rw [hs] at h
    have hlen : hd.length ≤ p.comps.length := by
      cases hq : p.comps with
      | nil => exact absurd hq h0
      | cons a l => rcases hd' with rfl | rfl | rfl <;> simp
    have : c :: r = (hd ++ t).drop p.comps.length := by rw [h]; simp
    rw [this, List.drop_append, List.drop_eq_nil_of_le hlen, List.nil_append] at hsr
    exact ht s (List.drop_subset _ _ hsr)
  unfold loc
  rw [h, List.foldl_append, foldl_lexStep_names _ hrt]

/-- The files of a tree with their locations below `L`. -/
def placed (L : List Bytes) (ns : List KNode) : List (List Bytes × Bytes) := (filesOf ns).map fun x => (L ++ x.1, x.2)

/-- Where a fetch of a stored tree has got to, whatever its outcome. -/
theorem fetch_halfway {db : Db} {n : Nat} {k : Key} {ns : List KNode} (hs : Snap.Stored db n k ns) (hok : ∀ x ∈ ns, ∀ m ∈ x.node.rel, okName m)
    (hap : (filesOf ns).Pairwise fun x y => ¬ x.1 <+: y.1 ∧ ¬ y.1 <+: x.1) (fs : Fs) {to : Path} (hto : Clean to) {fuel : Nat} (hfuel : n + 6 ≤ fuel) :
    Spec.Halfway fs.at (getFsItem db fuel k to fs).2.at (placed (loc fs.cwd to) ns) ∧
    ((getFsItem db fuel k to fs).1 = .ok () → ∀ x ∈ filesOf ns, ∃ md, (getFsItem db fuel k to fs).2.at (loc fs.cwd to ++ x.1) = some (.file x.2 md)) ∧
    ∀ q, (∀ x ∈ filesOf ns, q ≠ loc fs.cwd to ++ x.1) → (getFsItem db fuel k to fs).2.at q = fs.at q ∨ (fs.at q = none ∧ (getFsItem db fuel k to fs).2.at q = some .dir ∧
      ∃ x ∈ filesOf ns, q <+: loc fs.cwd to ++ x.1) := by
  obtain ⟨fl, hcuts, hget⟩ := getFsItem_stored hs
  have hcuts' : fl.map (fun x => (x.1, x.2.flatten)) = filesOf ns := by
    rw [hcuts, filesOf, List.filterMap_map]; rfl
  have hfl : ∀ x ∈ fl, (x.1, x.2.flatten) ∈ filesOf ns := fun x hx => by rw [← hcuts']; exact List.mem_map.mpr ⟨x, hx, rfl⟩
  have hokf : ∀ x ∈ fl, ∀ m ∈ x.1, okName m := by
    intro x hx m hm
    obtain ⟨y, hy, h1, _⟩ := mem_filesOf.mp (hfl x hx)
    exact hok y hy m (by rw [h1]; exact hm)
  rw [hget to fuel hfuel]
  have hplace : placed (loc fs.cwd to) ns = fl.flatMap fun x => [(loc fs.cwd to ++ x.1, x.2.flatten)] := by
    unfold placed
    rw [← hcuts', List.map_map, List.map_eq_flatMap]
    rfl
  have hab : ∀ x ∈ fl, ∀ p : Path, p.comps ≠ [] → (∃ c r, (joins to x.1).comps = p.comps ++ c :: r) →
      loc fs.cwd p <+: loc fs.cwd to ++ x.1 ∧ loc fs.cwd p ≠ loc fs.cwd to ++ x.1 := by
    rintro x hx p h0 ⟨c, r, h⟩
    have := loc_above (cwd := fs.cwd) (clean_joins hto (hokf x hx)).2 h0 h
    rw [loc_joins _ _ (hokf x hx)] at this
    rw [this]
    exact ⟨List.prefix_append _ _, fun h => by have := congrArg List.length h; simp at this⟩
  have hcw : ∀ (s : Fs) (x : List Bytes × List Bytes), s.cwd = fs.cwd → (plantOne (joins to x.1) x.2 s).2.cwd = fs.cwd := fun s x h =>
    ((keeps_plantOne fs.cwd s.at (joins to x.1) x.2) s ⟨h, fun q e h => h⟩).1.1
  have hfap : fl.Pairwise fun x y => ¬ x.1 <+: y.1 ∧ ¬ y.1 <+: x.1 := by
    rw [← hcuts', List.pairwise_map] at hap
    exact hap
  have hfree : ∀ x ∈ fl, ∀ y ∈ fl, ¬ y.1 <+: x.1 → ∀ s : Fs, s.cwd = fs.cwd → (plantOne (joins to x.1) x.2 s).2.at (loc fs.cwd to ++ y.1) = s.at (loc fs.cwd to ++ y.1) := by
    intro x hx y hy hxy s hsc
    refine plantOne_other s _ _ _ ?_ fun p h0 hp => ?_
    · rw [hsc, loc_joins _ _ (hokf x hx)]
      intro h
      rw [List.append_cancel_left h] at hxy
      exact hxy (List.prefix_refl _)
    · rw [hsc]
      intro h
      refine hxy ((List.prefix_append_right_inj (loc fs.cwd to)).mp ?_)
      rw [h]
      exact (hab x hx p h0 hp).1
  obtain ⟨m1, m2, m3, m4⟩ := each_halfway (f := fun x => plantOne (joins to x.1) x.2) (files := fun x => [(loc fs.cwd to ++ x.1, x.2.flatten)]) (I := fun s => s.cwd = fs.cwd) (l := fl)
    (fun x _ s hs => hcw s x hs)
    (fun x hx s hs => by
      obtain ⟨g1, _⟩ := plantOne_half s (joins to x.1) x.2 fun p h0 hp => by
        rw [hs, loc_joins _ _ (hokf x hx)]; exact Ne.symm (hab x hx p h0 hp).2
      rw [hs, loc_joins _ _ (hokf x hx)] at g1
      exact ⟨[], [(loc fs.cwd to ++ x.1, x.2.flatten)], [], by simp, by simp, by simp, by simpa using g1, by simp⟩)
    (fun x hx s hs h => by
      obtain ⟨_, g2⟩ := plantOne_half s (joins to x.1) x.2 fun p h0 hp => by
        rw [hs, loc_joins _ _ (hokf x hx)]; exact Ne.symm (hab x hx p h0 hp).2
      rw [hs, loc_joins _ _ (hokf x hx)] at g2
      simpa using g2 h)
    (hfap.imp_of_mem fun {x y} hx hy h => ⟨fun s hs => by simpa using hfree x hx y hy h.2 s hs, fun s hs => by simpa using hfree y hy x hx h.1 s hs⟩) (s := fs) rfl
  rw [← hplace] at m2 m3
  refine ⟨m2, fun h x hx => m3 h (loc fs.cwd to ++ x.1, x.2) (List.mem_map.mpr ⟨x, hx, rfl⟩), fun q hq => ?_⟩
  let J : AtFn → Prop := fun a => a q = fs.at q ∨ (fs.at q = none ∧ a q = some .dir ∧ ∃ x ∈ filesOf ns, q <+: loc fs.cwd to ++ x.1)
  have hpres : Pres (TreeInv fs.cwd J) (SM.each (fun x => plantOne (joins to x.1) x.2) fl) (fun _ => True) := by
    refine Pres.each fun x hx => pres_plantOne (fun p h0 hp a ha hn => ?_) fun a c md ha _ => ?_
    · by_cases he : q = loc fs.cwd p
      · refine .inr ⟨?_, by rw [he]; simp [upd], (x.1, x.2.flatten), hfl x hx, by rw [he]; exact (hab x hx p h0 hp).1⟩
        rw [← he] at hn
        rcases ha with ha | ha
        · rw [← ha]; exact hn
        · exact ha.1
      · show J _
        simp only [J, upd, if_neg he]
        exact ha
    · have he : q ≠ loc fs.cwd (joins to x.1) := by rw [loc_joins _ _ (hokf x hx)]; exact hq _ (hfl x hx)
      show J _
      simp only [J, upd, if_neg he]
      exact ha
  exact (hpres fs ⟨rfl, .inl rfl⟩).1.2

/-- What opening a file for writing does. -/
theorem create_any (fs : Fs) {P : Path} (hcl : Clean P) :
    (∃ q md, (Fs.create P fs).1 = .ok q ∧ q = loc fs.cwd P ∧ (Fs.create P fs).2.cwd = fs.cwd ∧ (Fs.create P fs).2.at = upd fs.at q (.file [] md)) ∨
    ((∀ q, (Fs.create P fs).1 ≠ .ok q) ∧ (Fs.create P fs).2.cwd = fs.cwd ∧ (Fs.create P fs).2.at = fs.at) := by
  cases hr : (Fs.create P fs).1 with
  | ok q =>
    obtain ⟨h1, h2, _, ⟨md, h3⟩, _⟩ := create_ok hcl (Prod.ext hr rfl : Fs.create P fs = (.ok q, _))
    exact .inl ⟨q, md, rfl, h1, h2, h3⟩
  | _ =>
    obtain ⟨h1, h2⟩ := create_fail (Prod.ext hr rfl : Fs.create P fs = (_, (Fs.create P fs).2)) (by simp)
    exact .inr ⟨by simp, h2, h1⟩

/-- The directories of a stored tree and their files: the files of the parts in order. -/
theorem placed_dir (L : List Bytes) (k : Key) (es : List (Bytes × Key × List KNode)) :
    placed L (⟨⟨[], none⟩, k⟩ :: es.flatMap fun e => e.2.2.map (KNode.under e.1)) = es.flatMap fun e => placed (L ++ [e.1]) e.2.2 := by
  unfold placed filesOf
  rw [List.filterMap_cons]
  simp only [Option.map_none]
  induction es with
  | nil => rfl
  | cons e es ih =>
    simp only [List.flatMap_cons, List.filterMap_append, List.map_append, ih, List.append_cancel_right_eq]
    rw [List.filterMap_map, List.map_filterMap, List.map_filterMap]
    congr 1
    funext x
    cases hc : x.node.content with
    | none => simp [hc]
    | some c => simp [hc]

theorem pres_removeAll {cwd : List Bytes} {path : Path} {l : List Bytes} (hl : ∀ m ∈ l, okName m) {S : List Bytes → Prop} {a0 : AtFn}
    (hS : ∀ m ∈ l, ∀ q, S q → ¬ (loc cwd path ++ [m]) <+: q) : Pres (TreeInv cwd (Frozen S a0)) (SM.each (removeExtra path) l) (fun _ => True) := by
  refine Pres.each fun m hm => pres_removeExtra (hl m hm) ?_ ?_
  · intro a k ha hk hk'
    refine ⟨atWf_keep ha.1 hk', atNames_keep ha.2.1 _, fun q hq => ?_⟩
    unfold keep
    rw [if_pos]
    · exact ha.2.2 q hq
    · cases hkq : k q with
      | true => rfl
      | false => exact absurd (hk q hkq) (hS m hm q hq)
  · intro a k ha hk hnd
    refine ⟨?_, atNames_keep ha.2.1 _, fun q hq => ?_⟩
    · intro q x h
      unfold keep at h ⊢
      split at h
      · have := ha.1 q x h
        rw [if_pos]
        · exact this
        · cases hkq : k q with
          | true => rfl
          | false => rw [hk q hkq] at this; exact absurd this hnd
      · simp at h
    · unfold keep
      rw [if_pos]
      · exact ha.2.2 q hq
      · cases hkq : k q with
        | true => rfl
        | false => exact absurd (by rw [hk q hkq]; exact List.prefix_refl _) (hS m hm q hq)

theorem mem_placed {L : List Bytes} {ns : List KNode} {x : List Bytes × Bytes} (h : x ∈ placed L ns) : L <+: x.1 := by
  obtain ⟨y, _, rfl⟩ := List.mem_map.mp h
  exact List.prefix_append _ _

/-- Where a checkout of a stored tree has got to, whatever its outcome. -/
theorem checkout_halfway {db : Db} {n : Nat} {k : Key} {ns : List KNode} (hs : Snap.Stored db n k ns) (ho : ∀ x ∈ ns, ∀ m ∈ x.node.rel, okName m)
    (hnd : (ns.map fun x => x.node.rel).Nodup) {fuel : Nat} (hf : n + 6 ≤ fuel) {filter : Filter} {iter : List Bytes → List Bytes} {path : Path} (hcl : Clean path)
    (hiter : ∀ l x, x ∈ iter l ↔ x ∈ l) {acc : Path → Bool} {fs : Fs} (hacc : ∀ f p b, f.cwd = fs.cwd → filter f p = .ok b → b = acc p)
    (hw : AtWf fs.at) (hn : AtNames fs.at) :
    Spec.Halfway fs.at (checkoutFsItem db filter iter fuel k path fs).2.at (placed (loc fs.cwd path) ns) := by
  induction n generalizing k ns fuel path fs with
  | zero => exact hs.elim
  | succ n ih =>
    obtain ⟨fuel, rfl⟩ : ∃ f, fuel = f + 1 := ⟨fuel - 1, by omega⟩
    rcases hs with ⟨sz, nm, ck, c, m, h1, h2, h3, rfl⟩ | ⟨sz, es, h1, rfl, h3⟩
    · obtain ⟨ls, rfl, hrun⟩ := checkout_file (filter := filter) (iter := iter) (path := path) h1 h3 (fuel := fuel) (by omega)
      refine ⟨[], [(loc fs.cwd path, ls.flatten)], [], by simp [placed, filesOf], by simp, by simp, ?_, by simp⟩
      intro x hx
      rw [List.mem_singleton] at hx
      subst hx
      dsimp only
      rw [hrun, SM.bind_apply]
      rcases create_any fs hcl with ⟨q, md, g1, g2, g3, g4⟩ | ⟨g1, g2, g3⟩
      · generalize Fs.create path fs = z at g1 g3 g4 ⊢
        obtain ⟨r, fs2⟩ := z
        simp only at g1 g3 g4
        subst g1
        subst g2
        dsimp only
        have hf : fs2.at (loc fs.cwd path) = some (.file [] md) := by rw [g4]; simp [upd]
        right
        split
        · obtain ⟨t, e1, e2, e3⟩ := each_writeAll_part hf ls
          exact ⟨t, md, e1, by rw [e3]; simp [upd]⟩
        · exact ⟨[], md, by simp, hf⟩
      · generalize Fs.create path fs = z at g1 g2 g3 ⊢
        obtain ⟨r, fs2⟩ := z
        simp only at g1 g2 g3
        cases r with
        | ok q => exact absurd rfl (g1 q)
        | _ => exact .inl (by show fs2.at _ = _; rw [g3])
    · rw [checkout_dir h1, placed_dir, SM.bind_apply]
      have hsm : (SM.read (fun fs : Fs => fs.readDir path) : SM Fs _) fs = (fs.readDir path, fs) := rfl
      rw [hsm]
      cases g1 : fs.readDir path with
      | ok all =>
        obtain ⟨hl, hd, rfl⟩ := readDir_ok g1
        dsimp only
        rw [SM.bind_apply]
        have hsm2 : (SM.read (fun fs' : Fs => acceptedNames fs' filter path (fs.names (loc fs.cwd path))) : SM Fs _) fs =
            (acceptedNames fs filter path (fs.names (loc fs.cwd path)), fs) := rfl
        rw [hsm2]
        cases g2 : acceptedNames fs filter path (fs.names (loc fs.cwd path)) with
        | ok mine =>
          dsimp only
          rw [SM.bind_apply]
          have heok : ∀ e ∈ es, okName e.1 := by
            intro e he
            obtain ⟨x, hx, hxr⟩ := stored_root (h3 e he)
            exact ho (x.under e.1) (mem_under he hx) e.1 (by simp)
          have hmine := acceptedNames_ok g2
          simp only [List.map_cons, List.nodup_cons] at hnd
          obtain ⟨hnames, hsub⟩ := stored_names_nodup h3 hnd.2
          generalize hl : iter (mine.filter fun x => !((es.map (·.1)).any fun y => Path.comps y == Path.comps x)) = extra
          have hex : ∀ m ∈ extra, okName m ∧ m ∉ es.map (·.1) := by
            intro m hm
            rw [← hl, hiter, List.mem_filter] at hm
            obtain ⟨hm1, hm2⟩ := hm
            refine ⟨hn _ _ (mem_names.mp ((hmine m).mp hm1).1), fun h => ?_⟩
            have : (es.map (·.1)).any (fun y => Path.comps y == Path.comps m) = true := List.any_eq_true.mpr ⟨m, h, by simp⟩
            rw [this] at hm2
            simp at hm2
          have hrm := (pres_removeAll (cwd := fs.cwd) (path := path) (fun m hm => (hex m hm).1)
            (S := fun q => ∀ m ∈ extra, ¬ (loc fs.cwd path ++ [m]) <+: q) (a0 := fs.at) (fun m hm q hq => hq m hm) fs ⟨rfl, hw, hn, fun _ _ => rfl⟩).1
          have hzone : ∀ e ∈ es, ∀ q, (loc fs.cwd path ++ [e.1]) <+: q → ∀ m ∈ extra, ¬ (loc fs.cwd path ++ [m]) <+: q := by
            rintro e he q ⟨t, rfl⟩ m hm hp
            rw [List.append_assoc] at hp
            obtain ⟨u, hu⟩ := (List.prefix_append_right_inj _).mp hp
            simp at hu
            exact (hex m hm).2 (hu.1 ▸ List.mem_map_of_mem he)
          generalize SM.each (removeExtra path) extra fs = y at hrm ⊢
          obtain ⟨r, fs1⟩ := y
          obtain ⟨hc1, hw1, hn1, hs1⟩ := hrm
          have hc1 : fs1.cwd = fs.cwd := hc1
          have hsame : ∀ x ∈ es.flatMap (fun e => placed (loc fs.cwd path ++ [e.1]) e.2.2), fs1.at x.1 = fs.at x.1 := by
            intro x hx
            obtain ⟨e, he, hx⟩ := List.mem_flatMap.mp hx
            exact hs1 _ (hzone e he _ (mem_placed hx))
          have hd1 : fs1.at (loc fs.cwd path) = some .dir := by
            rw [hs1 _ (by intro m _ hp; have := hp.length_le; simp at this; omega)]; exact hd
          cases r with
          | ok u =>
            dsimp only
            have key : ∀ e ∈ es, ∀ s : Fs, (s.cwd = fs.cwd ∧ AtWf s.at ∧ AtNames s.at ∧ s.at (loc fs.cwd path) = some .dir) →
                let z := (do
                  Fs.createDirAll path
                  checkoutFsItem db filter iter fuel e.2.1 (Path.join path e.1) : SM Fs Unit) s
                (z.2.cwd = fs.cwd ∧ AtWf z.2.at ∧ AtNames z.2.at ∧ z.2.at (loc fs.cwd path) = some .dir) ∧
                Spec.Halfway s.at z.2.at (placed (loc fs.cwd path ++ [e.1]) e.2.2) ∧
                (z.1 = .ok () → ∀ x ∈ placed (loc fs.cwd path ++ [e.1]) e.2.2, ∃ md, z.2.at x.1 = some (.file x.2 md)) ∧
                ∀ q, ¬ (loc fs.cwd path ++ [e.1]) <+: q → z.2.at q = s.at q := by
              rintro e he s ⟨i1, i2, i3, i4⟩
              have heo := heok e he
              dsimp only
              rw [SM.bind_apply]
              obtain ⟨sa, sc⟩ := createDirAll_same (fs := s) i2 hcl.2 (by rw [i1]; exact i4)
              generalize Fs.createDirAll path s = y at sa sc ⊢
              obtain ⟨r, s1⟩ := y
              have sa : s1.at = s.at := sa
              have sc : s1.cwd = s.cwd := sc
              have hstop : (s1.cwd = fs.cwd ∧ AtWf s1.at ∧ AtNames s1.at ∧ s1.at (loc fs.cwd path) = some .dir) ∧
                  Spec.Halfway s.at s1.at (placed (loc fs.cwd path ++ [e.1]) e.2.2) ∧ ∀ q, ¬ (loc fs.cwd path ++ [e.1]) <+: q → s1.at q = s.at q := by
                rw [sa]
                exact ⟨⟨sc.trans i1, i2, i3, i4⟩, halfway_none fun _ _ => rfl, fun _ _ => rfl⟩
              cases r with
              | ok u =>
                dsimp only
                have hloc : loc fs.cwd (Path.join path e.1) = loc fs.cwd path ++ [e.1] := loc_join _ _ heo
                have hsc : s1.cwd = fs.cwd := sc.trans i1
                have hcle : Clean (Path.join path e.1) := clean_joins (ns := [e.1]) hcl (by simpa using heo)
                have hoe : ∀ x ∈ e.2.2, ∀ m ∈ x.node.rel, okName m := fun x hx m hm => ho (x.under e.1) (mem_under he hx) m (by simp [hm])
                have hacc1 : ∀ f p b, f.cwd = s1.cwd → filter f p = .ok b → b = acc p := fun f p b hf => hacc f p b (hf.trans hsc)
                have hp := (pres_checkout (h3 e he) hoe (hsub e he) (fuel := fuel) hcle hiter hacc1 (S := fun q => ¬ loc s1.cwd (Path.join path e.1) <+: q) (a0 := s1.at)
                  (fun x _ _ h => h (List.prefix_append _ _)) (fun x _ _ m _ _ q hq h => hq ((by rw [List.append_assoc]; exact List.prefix_append _ _ : _ <+: _).trans h))
                  s1 ⟨rfl, by rw [sa]; exact i2, by rw [sa]; exact i3, fun _ _ => rfl⟩).1
                have hih := ih (h3 e he) hoe (hsub e he) (fuel := fuel) (by omega) hcle (fs := s1) hacc1 (by rw [sa]; exact i2) (by rw [sa]; exact i3)
                rw [hsc, hloc, sa] at hih
                obtain ⟨p1, p2, p3, p4⟩ := hp
                rw [hsc, hloc, sa] at p4
                have p4 : ∀ q, ¬ (loc fs.cwd path ++ [e.1]) <+: q → (checkoutFsItem db filter iter fuel e.2.1 (Path.join path e.1) s1).2.at q = s.at q := p4
                refine ⟨⟨p1.trans hsc, p2, p3, ?_⟩, hih, fun hok x hx => ?_, p4⟩
                · rw [p4 _ (by intro hp; have := hp.length_le; simp at this; omega)]; exact i4
                · obtain ⟨_, _, _, _, hm⟩ := checkout_ok (h3 e he) hoe (hsub e he) (fuel := fuel) (by omega) hcle hiter hacc1 (by rw [sa]; exact i2) (by rw [sa]; exact i3)
                    (Prod.ext hok rfl : checkoutFsItem db filter iter fuel e.2.1 (Path.join path e.1) s1 = (.ok (), _))
                  rw [hsc, hloc] at hm
                  obtain ⟨⟨rel, c⟩, hy, rfl⟩ := List.mem_map.mp hx
                  obtain ⟨y, hy2, rfl, hc⟩ := mem_filesOf.mp hy
                  have := hm.nodes y.node (List.mem_map_of_mem hy2)
                  rw [hc] at this
                  exact this
              | _ => exact ⟨hstop.1, hstop.2.1, fun h => by simp at h, hstop.2.2⟩
            have hapart : es.Pairwise fun a b => a.1 ≠ b.1 := by
              have := hnames
              rw [List.Nodup, List.pairwise_map] at this
              exact this
            have hout : ∀ a ∈ es, ∀ b ∈ es, a.1 ≠ b.1 → ∀ x ∈ placed (loc fs.cwd path ++ [b.1]) b.2.2, ¬ (loc fs.cwd path ++ [a.1]) <+: x.1 := by
              intro a _ b _ hab x hx hp
              obtain ⟨t, ht⟩ := mem_placed hx
              rw [← ht, List.append_assoc] at hp
              obtain ⟨u, hu⟩ := (List.prefix_append_right_inj _).mp hp
              simp at hu
              exact hab hu.1
            obtain ⟨_, m2, _, _⟩ := each_halfway (f := fun (e : Bytes × Key × List KNode) => do
                Fs.createDirAll path
                checkoutFsItem db filter iter fuel e.2.1 (Path.join path e.1)) (files := fun e => placed (loc fs.cwd path ++ [e.1]) e.2.2)
              (I := fun s => s.cwd = fs.cwd ∧ AtWf s.at ∧ AtNames s.at ∧ s.at (loc fs.cwd path) = some .dir) (l := es)
              (fun a ha s hs => (key a ha s hs).1) (fun a ha s hs => (key a ha s hs).2.1) (fun a ha s hs => (key a ha s hs).2.2.1)
              (hapart.imp_of_mem fun {a b} ha hb hab => ⟨fun s hs x hx => (key a ha s hs).2.2.2 _ (hout a ha b hb hab x hx),
                fun s hs x hx => (key b hb s hs).2.2.2 _ (hout b hb a ha (Ne.symm hab) x hx)⟩) (s := fs1) ⟨hc1, hw1, hn1, hd1⟩
            obtain ⟨dn, cur, rest, e, hl, g1, g2, g3⟩ := m2
            exact ⟨dn, cur, rest, e, hl, g1, fun x hx => by rw [← hsame x (by rw [e]; simp [hx])]; exact g2 x hx,
              fun x hx => by rw [← hsame x (by rw [e]; simp [hx])]; exact g3 x hx⟩
          | _ => exact halfway_none hsame
        | _ => exact halfway_none fun _ _ => rfl
      | _ => exact halfway_none fun _ _ => rfl

/-! ## The commands -/

/-- The tree stored under a key has a file with contents `c` at `rel`. -/
inductive Spec.Has (db : Db) : Key → List Bytes → Bytes → Prop where
  | file {k i ck c} : getItem db k = .ok i → i.itemtype = .file → i.children = [ck] → ReadsBack db ck c → Spec.Has db k [] c
  | down {k i ck n rel c} : getItem db k = .ok i → i.itemtype = .dir → (ck, n) ∈ i.children.zip i.names → Spec.Has db ck rel c → Spec.Has db k (n :: rel) c

theorem stored_has {db : Db} {n : Nat} {k : Key} {ns : List KNode} (hs : Snap.Stored db n k ns) (rel : List Bytes) (c : Bytes) : Spec.Has db k rel c ↔ (rel, c) ∈ filesOf ns := by
  induction n generalizing k ns rel with
  | zero => exact hs.elim
  | succ n ih =>
    rcases hs with ⟨sz, nm, ck, c', m, h1, h2, h3, rfl⟩ | ⟨sz, es, h1, rfl, h3⟩
    · have hrb : ReadsBack db ck c' := fun fuel hf => by have := h3.read fuel (by omega) []; simpa using this
      constructor
      · intro h
        cases h with
        | file hi hty hch hr =>
          rw [h1] at hi
          simp at hi
          subst hi
          simp at hch
          subst hch
          have e1 := hr 6 (Nat.le_refl _)
          rw [hrb 6 (Nat.le_refl _)] at e1
          simp at e1
          simp [filesOf, e1]
        | down hi hty => rw [h1] at hi; simp at hi; subst hi; simp at hty
      · intro h
        simp [filesOf] at h
        obtain ⟨rfl, rfl⟩ := h
        exact .file h1 rfl rfl hrb
    · have hzip : (es.map (·.2.1)).zip (es.map (·.1)) = es.map fun e => (e.2.1, e.1) := List.zip_map'
      rw [mem_filesOf]
      constructor
      · intro h
        cases h with
        | file hi hty => rw [h1] at hi; simp at hi; subst hi; simp at hty
        | down hi hty hc hr =>
          rw [h1] at hi
          simp at hi
          subst hi
          simp only at hc
          rw [hzip] at hc
          obtain ⟨e, he, heq⟩ := List.mem_map.mp hc
          simp only [Prod.mk.injEq] at heq
          obtain ⟨rfl, rfl⟩ := heq
          obtain ⟨y, hy, h4, h5⟩ := mem_filesOf.mp ((ih (h3 e he) _).mp hr)
          exact ⟨y.under e.1, mem_under he hy, by simp [h4], by simp [h5]⟩
      · rintro ⟨x, hx, rfl, hc⟩
        rcases List.mem_cons.mp hx with rfl | hx
        · simp at hc
        · obtain ⟨e, he, hx⟩ := List.mem_flatMap.mp hx
          obtain ⟨y, hy, rfl⟩ := List.mem_map.mp hx
          refine .down h1 rfl ?_ ((ih (h3 e he) _).mpr (mem_filesOf.mpr ⟨y, hy, rfl, by simpa using hc⟩))
          simp only
          rw [hzip]
          exact List.mem_map_of_mem he

/-- Each file of the tree stored under `k` is, below `L`, as it was before or as it is stored; only of the one at `odd` there may be but a beginning. -/
def Spec.Partway (db : Db) (k : Key) (L : List Bytes) (old new : AtFn) (odd : List Bytes) : Prop :=
  ∀ rel c, Spec.Has db k rel c →
    new (L ++ rel) = old (L ++ rel) ∨ (∃ md, new (L ++ rel) = some (.file c md)) ∨ (rel = odd ∧ ∃ c' md, c' <+: c ∧ new (L ++ rel) = some (.file c' md))

theorem partway_of {db : Db} {n : Nat} {k : Key} {ns : List KNode} (hs : Snap.Stored db n k ns) {L : List Bytes} {old new : AtFn} (h : Spec.Halfway old new (placed L ns)) :
    ∃ odd, Spec.Partway db k L old new odd := by
  obtain ⟨dn, cur, rest, e, hl, h1, h2, h3⟩ := h
  have hin : ∀ rel c, Spec.Has db k rel c → (L ++ rel, c) ∈ dn ++ cur ++ rest := fun rel c hh => by
    rw [← e]; exact List.mem_map.mpr ⟨(rel, c), (stored_has hs _ _).mp hh, rfl⟩
  match cur, hl with
  | [], _ =>
    refine ⟨[], fun rel c hh => ?_⟩
    have := hin rel c hh
    simp only [List.append_nil, List.mem_append] at this
    rcases this with h | h
    · exact .inr (.inl (h1 _ h))
    · exact .inl (h3 _ h)
  | [x], _ =>
    obtain ⟨y, hy, hx⟩ : ∃ y ∈ filesOf ns, (L ++ y.1, y.2) = x := List.mem_map.mp (by show x ∈ placed L ns; rw [e]; simp)
    refine ⟨y.1, fun rel c hh => ?_⟩
    have := hin rel c hh
    simp only [List.mem_append, List.mem_singleton] at this
    rcases this with (h | h) | h
    · exact .inr (.inl (h1 _ h))
    · rcases h2 x (by simp) with h4 | ⟨c', md, h4, h5⟩
      · rw [← h] at h4; exact .inl h4
      · rw [← h] at h4 h5
        refine .inr (.inr ⟨?_, c', md, h4, h5⟩)
        rw [← hx] at h
        simp at h
        exact h.1
    · exact .inl (h3 _ h)
  | _ :: _ :: _, hl => exact absurd hl (by simp)

/-- **C99**, `fetch`, whatever fails and whatever its outcome: each file of the tree is as it was or as it is stored, except that of one there may be but a beginning.
Elsewhere nothing changes but for new directories on the way to the tree's files. -/
theorem C99_fetch (X : Ctx) (w : World) (hs : w.Sound X.E.H) (R : Repo) (q : List Bytes) (hc : NoColl X.E.H (w.dbs q)) (ho : Opens X w R q)
    (hdepth : (w.dbs q).data.length + 6 ≤ X.depth) (key : Keyish) (k : Key) (hk : canonicalize (w.dbs q) key = .ok k)
    (hitem : LeadsTo (w.dbs q) k IsItem) (to : Path) (hto : Clean to) :
    (∃ odd, Spec.Partway (w.dbs q) k (loc w.fs.cwd to) w.fs.at (mainRun X (.fetch key to) w).2.2.fs.at odd) ∧
    ∀ q', (∀ rel c, Spec.Has (w.dbs q) k rel c → q' ≠ loc w.fs.cwd to ++ rel) → (mainRun X (.fetch key to) w).2.2.fs.at q' = w.fs.at q' ∨
      (w.fs.at q' = none ∧ (mainRun X (.fetch key to) w).2.2.fs.at q' = some .dir ∧ ∃ rel c, Spec.Has (w.dbs q) k rel c ∧ q' <+: loc w.fs.cwd to ++ rel) := by
  obtain ⟨o, g1, g2⟩ := hitem
  obtain ⟨ns, g3, g4, _, g6⟩ := (whole_trees hs q hc g1).2 g2
  have g3 := g3 _ (Nat.le_refl _)
  rw [fetch_fs ho hk]
  obtain ⟨h1, _, h3⟩ := fetch_halfway g3 g4 g6 w.fs hto hdepth
  refine ⟨partway_of g3 h1, fun q' hq => ?_⟩
  rcases h3 q' fun x hx => hq x.1 x.2 ((stored_has g3 _ _).mpr hx) with h | ⟨h4, h5, x, hx, h6⟩
  · exact .inl h
  · exact .inr ⟨h4, h5, x.1, x.2, (stored_has g3 _ _).mpr hx, h6⟩

theorem checkout_fs {X : Ctx} {w : World} {R : Repo} {q : List Bytes} (ho : Opens X w R q) {ck : Key} {c : Commit} (h1 : getHeadKey (w.dbs q) = .ok ck)
    (h2 : Commit.fromKey (w.dbs q) ck = .ok c) :
    (mainRun X .checkout w).2.2.fs = (checkoutFsItem (w.dbs q) (makeFilter X.glob R.folder) X.iterNames X.depth c.tree R.root w.fs).2 := by
  rw [mainRun_open (by simp) ho]
  show (Command.checkout.inRepo X R (startOf w q)).2.fs = _
  rw [checkout_run X R (startOf w q) (ck := ck) (c := c) h1 h2]
  rfl

/-- **C99**, `checkout`, whatever fails and whatever its outcome: each file of the commit is as it was or as it is stored, except that of one there may be but a beginning. -/
theorem C99_checkout (X : Ctx) (hnames : ∀ l, (X.iterNames l).Perm l) (hplain : okName X.dbPath) (w : World) (hs : w.Sound X.E.H) (hw : w.fs.Wf) (R : Repo) (q : List Bytes)
    (hc : NoColl X.E.H (w.dbs q)) (ho : Opens X w R q) (hdepth : (w.dbs q).data.length + 6 ≤ X.depth) (ck : Key) (c : Commit) (h1 : getHeadKey (w.dbs q) = .ok ck)
    (h2 : Commit.fromKey (w.dbs q) ck = .ok c) (hitem : LeadsTo (w.dbs q) c.tree IsItem) :
    ∃ odd, Spec.Partway (w.dbs q) c.tree (loc w.fs.cwd R.root) w.fs.at (mainRun X .checkout w).2.2.fs.at odd := by
  obtain ⟨o, g1, g2⟩ := hitem
  obtain ⟨ns, g3, g4, g5, _⟩ := (whole_trees hs q hc g1).2 g2
  have g3 := g3 _ (Nat.le_refl _)
  obtain ⟨_, _, _, _, _, _, _, _, hcr, _⟩ := opens_plain hw ho hplain
  rw [checkout_fs ho h1 h2]
  exact partway_of g3 (checkout_halfway g3 g4 g5 hdepth hcr (fun l x => (hnames l).mem_iff) (acc := accepts X.glob R.folder w.fs.cwd)
    (fun f p b hc hb => by rw [← hc]; exact makeFilter_accepts hb) (wf_atWf hw) (wf_atNames hw))

/-- A checkout that does not end well leaves the directory ready for another one. -/
theorem checkout_stays_ready {db : Db} {n : Nat} {k : Key} {ns : List KNode} (hs : Snap.Stored db n k ns) (ho : ∀ x ∈ ns, ∀ m ∈ x.node.rel, okName m)
    (hnd : (ns.map fun x => x.node.rel).Nodup) {fuel : Nat} (hf : n + 6 ≤ fuel) {filter : Filter} {iter : List Bytes → List Bytes} {path : Path} (hcl : Clean path)
    (hiter : ∀ l x, x ∈ iter l ↔ x ∈ l) {acc : Path → Bool} {fs : Fs} (hacc : ∀ f p b, f.cwd = fs.cwd → filter f p = .ok b → b = acc p)
    (hw : AtWf fs.at) (hn : AtNames fs.at) (hlinks : ∀ u, (checkoutFsItem db filter iter fuel k path fs).2.at u = some .broken → fs.at u = some .broken)
    (hr : ReadyNodes fs.at (loc fs.cwd path) ns) : ReadyNodes (checkoutFsItem db filter iter fuel k path fs).2.at (loc fs.cwd path) ns := by
  have hfro := (pres_checkout hs ho hnd (fuel := fuel) hcl hiter hacc (S := fun q => ∃ x ∈ ns, x.node.content = none ∧ q = loc fs.cwd path ++ x.node.rel) (a0 := fs.at)
    (by
      rintro y hy hc ⟨x, hx, hxc, he⟩
      rw [nodup_map_inj hnd hy hx (List.append_cancel_left he)] at hc
      exact hc hxc)
    (by
      rintro x hx hxc m _ hno q ⟨y, hy, hyc, rfl⟩ hp
      rw [List.append_assoc] at hp
      obtain ⟨t, ht⟩ := (List.prefix_append_right_inj _).mp hp
      obtain ⟨z, hz, hzr⟩ := stored_closed hs hy ht.symm
      exact hno z hz hzr) fs ⟨rfl, hw, hn, fun _ _ => rfl⟩).1.2.2.2
  refine ⟨fun x hx hc => ⟨?_, fun m hb => (hr.dirs x hx hc).2 m (hlinks _ hb)⟩, fun x hx hc => ?_⟩
  · rw [hfro _ ⟨x, hx, hc, rfl⟩]; exact (hr.dirs x hx hc).1
  · cases hxc : x.node.content with
    | none => exact absurd hxc hc
    | some c =>
      obtain ⟨dn, cur, rest, e, _, h1, h2, h3⟩ := checkout_halfway hs ho hnd hf hcl hiter hacc hw hn
      have : (loc fs.cwd path ++ x.node.rel, c) ∈ dn ++ cur ++ rest := by
        rw [← e]; exact List.mem_map.mpr ⟨(x.node.rel, c), mem_filesOf.mpr ⟨x, hx, rfl, hxc⟩, rfl⟩
      simp only [List.mem_append] at this
      rcases this with (h | h) | h
      · obtain ⟨md, h⟩ := h1 _ h
        exact .inr ⟨_, md, h⟩
      · rcases h2 _ h with h | ⟨c', md, _, h⟩
        · rw [h]; exact hr.files x hx hc
        · exact .inr ⟨c', md, h⟩
      · rw [h3 _ h]; exact hr.files x hx hc

/-- **C99**, `checkout` again: where a `checkout` could have ended well but something failed on the way, and nobody touches the files or what is recorded, the next one ends well
(if nothing fails), and then every file of the commit is as it is stored. -/
theorem C99_checkout_again (X : Ctx) (hnames : ∀ l, (X.iterNames l).Perm l) (hplain : okName X.dbPath) (w : World) (hs : w.Sound X.E.H) (hw : w.fs.Wf) (R : Repo) (q : List Bytes)
    (hc : NoColl X.E.H (w.dbs q)) (ho : Opens X w R q) (hg : Path.startsWith R.root sGuard = true)
    (hdepth : (w.dbs q).data.length + 6 ≤ X.depth) (ck : Key) (c : Commit) (h1 : getHeadKey (w.dbs q) = .ok ck) (h2 : Commit.fromKey (w.dbs q) ck = .ok c)
    (hitem : LeadsTo (w.dbs q) c.tree IsItem) (hready : Spec.Ready (w.dbs q) c.tree w.fs.at (loc w.fs.cwd R.root))
    (w2 : World) (hat : w2.fs.at = (mainRun X .checkout w).2.2.fs.at) (hcwd : w2.fs.cwd = w.fs.cwd) (hdb : SameTables (w2.dbs q) ((mainRun X .checkout w).2.2.dbs q))
    (hw2 : w2.fs.Wf) (ho2 : Opens X w2 R q) (hf2 : w2.fs.faults = []) (hcf2 : w2.cache.faults = []) :
    (mainRun X .checkout w2).1 = .success ∧
    ∀ rel d, Spec.Has (w.dbs q) c.tree rel d → ∃ md, (mainRun X .checkout w2).2.2.fs.at (loc w.fs.cwd R.root ++ rel) = some (.file d md) := by
  obtain ⟨o, g1, g2⟩ := hitem
  obtain ⟨ns, g3, g4, g5, _⟩ := (whole_trees hs q hc g1).2 g2
  have g3 := g3 _ (Nat.le_refl _)
  obtain ⟨up, down, _, e2, e3, hu, hl1, hl2, hcr, hup⟩ := opens_plain hw ho hplain
  have hst : SameTables (w2.dbs q) (w.dbs q) := hdb.trans (C45_readonly X .checkout (by simp) w q)
  rw [checkout_fs ho h1 h2] at hat
  have hfcl : Clean R.folder := by
    rw [e2]
    refine clean_abs fun n hn => ?_
    rcases List.mem_append.mp hn with h | h
    · exact hu n h
    · simp only [List.mem_singleton] at h; rw [h]; exact hplain
  have hf0 : R.folder ≠ [] := by obtain ⟨e, he⟩ := opens_folder ho; exact locate_ne_nil (metadata_ok he).1
  have htame := (checkout_only (typed_of hs q hc) (glob := X.glob) hf0 hfcl (fun l x => (hnames l).mem_iff.mp) X.depth c.tree R.root hcr (cwd := w.fs.cwd) (a0 := w.fs.at)
    (S := fun u => u = loc w.fs.cwd R.folder) rfl (by
      rintro u rfl n hp
      rw [hl1, hl2] at hp ⊢
      rw [hp.eq_of_length (by simp)]
      exact List.prefix_refl _) w.fs ⟨rfl, wf_atWf hw, wf_atNames hw, fun u hu => hu ▸ folder_dir hw ho, fun _ h => h⟩).1
  have hpre : (w.dbs q).data <+: (w2.dbs q).data := by rw [hst.1]; exact List.prefix_refl _
  have h1' : getHeadKey (w2.dbs q) = .ok ck := by
    rw [← h1]
    unfold getHeadKey headName getHead rawGetState reflogGet refRows
    rw [hst.2.1, hst.2.2]
  have hok : (mainRun X .checkout w2).1 = .success := by
    rw [checkout_iff hnames hplain hw2 ho2 hg hf2 hcf2 h1' (fromKey_mono hpre h2) (g3.mono hpre) g4 g5 hdepth, stored_ready (g3.mono hpre), hcwd, hat]
    exact checkout_stays_ready g3 g4 g5 hdepth hcr (fun l x => (hnames l).mem_iff) (acc := accepts X.glob R.folder w.fs.cwd)
      (fun f p b hc hb => by rw [← hc]; exact makeFilter_accepts hb) (wf_atWf hw) (wf_atNames hw) (fun u h => htame.2.links u h) ((stored_ready g3).mp hready)
  refine ⟨hok, fun rel d hd => ?_⟩
  rw [checkout_fs ho2 h1' (fromKey_mono hpre h2)]
  have hok2 : (checkoutFsItem (w2.dbs q) (makeFilter X.glob R.folder) X.iterNames X.depth c.tree R.root w2.fs).1 = .ok () := by
    rw [mainRun_open (by simp) ho2] at hok
    have := exit_success hok
    rw [checkout_run X R (startOf w2 q) (ck := ck) (c := c) h1' (fromKey_mono hpre h2)] at this
    exact this
  obtain ⟨_, _, _, _, hm⟩ := checkout_ok (acc := accepts X.glob R.folder w2.fs.cwd) (g3.mono hpre) g4 g5 hdepth hcr (fun l x => (hnames l).mem_iff)
    (fun f p b hc hb => by rw [← hc]; exact makeFilter_accepts hb) (wf_atWf hw2) (wf_atNames hw2)
    (Prod.ext hok2 rfl : checkoutFsItem (w2.dbs q) (makeFilter X.glob R.folder) X.iterNames X.depth c.tree R.root w2.fs = (.ok (), _))
  obtain ⟨x, hx, rfl, hxc⟩ := mem_filesOf.mp ((stored_has g3 _ _).mp hd)
  have := hm.nodes x.node (List.mem_map_of_mem hx)
  rw [hxc, hcwd] at this
  exact this

/-- **C99**, `fetch` again: where a `fetch` could have ended well but something failed on the way, and nobody touches the files, another `fetch` of the same tree to the same place
(with nothing failing) ends well exactly if the first one had not yet created any file. -/
theorem C99_fetch_again (X : Ctx) (w : World) (hs : w.Sound X.E.H) (R : Repo) (q : List Bytes) (hc : NoColl X.E.H (w.dbs q)) (ho : Opens X w R q)
    (hdepth : (w.dbs q).data.length + 6 ≤ X.depth) (key : Keyish) (k : Key) (hk : canonicalize (w.dbs q) key = .ok k)
    (hitem : LeadsTo (w.dbs q) k IsItem) (to : Path) (hto : Clean to) (h0 : Comes (w.dbs q) k [] false → to.lastIsName = true) (hfree : Spec.Free (w.dbs q) k w.fs.at (loc w.fs.cwd to))
    (w2 : World) (hat : w2.fs.at = (mainRun X (.fetch key to) w).2.2.fs.at) (hcwd : w2.fs.cwd = w.fs.cwd) (hs2 : w2.Sound X.E.H) (hw2 : w2.fs.Wf)
    (R2 : Repo) (q2 : List Bytes) (hc2 : NoColl X.E.H (w2.dbs q2)) (ho2 : Opens X w2 R2 q2) (hf2 : w2.fs.faults = []) (hcf2 : w2.cache.faults = [])
    (hdepth2 : (w2.dbs q2).data.length + 6 ≤ X.depth) (key2 : Keyish) (k2 : Key) (hk2 : canonicalize (w2.dbs q2) key2 = .ok k2) (hitem2 : LeadsTo (w2.dbs q2) k2 IsItem)
    (hsame : ∀ rel, Comes (w2.dbs q2) k2 rel false ↔ Comes (w.dbs q) k rel false) :
    (mainRun X (.fetch key2 to) w2).1 = .success ↔ ∀ rel c, Spec.Has (w.dbs q) k rel c → (mainRun X (.fetch key to) w).2.2.fs.at (loc w.fs.cwd to ++ rel) = none := by
  have hpart := C99_fetch X w hs R q hc ho hdepth key k hk hitem to hto
  obtain ⟨o, g1, g2⟩ := hitem
  obtain ⟨ns, g3, g4, _, g6⟩ := (whole_trees hs q hc g1).2 g2
  have g3 := g3 _ (Nat.le_refl _)
  have hhas : ∀ rel, Comes (w.dbs q) k rel false ↔ ∃ c, Spec.Has (w.dbs q) k rel c := by
    intro rel
    rw [comes_file g3]
    simp only [stored_has g3]
  rw [C88_fetch X w2 hs2 hw2 R2 q2 hc2 ho2 hf2 hcf2 hdepth2 key2 k2 hk2 hitem2 to hto, hcwd, hat]
  constructor
  · rintro ⟨_, hfr⟩ rel c hh
    exact (hfr rel ((hsame rel).mpr ((hhas rel).mpr ⟨c, hh⟩))).1
  · intro hno
    refine ⟨fun h => h0 ((hsame []).mp h), fun rel hr => ?_⟩
    obtain ⟨c, hh⟩ := (hhas rel).mp ((hsame rel).mp hr)
    refine ⟨hno rel c hh, fun p hp => ?_⟩
    by_cases hpl : ∀ rel' c', Spec.Has (w.dbs q) k rel' c' → p ≠ loc w.fs.cwd to ++ rel'
    · rcases hpart.2 p hpl with h | h
      · rw [h]; exact (hfree rel ((hhas rel).mpr ⟨c, hh⟩)).2 p hp
      · exact .inr h.2.1
    · simp only [Classical.not_forall] at hpl
      obtain ⟨rel', c', hh', hpe⟩ := hpl
      rw [Classical.not_not.mp hpe]
      exact .inl (hno rel' c' hh')

end Snap.Props
