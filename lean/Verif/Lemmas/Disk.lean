import Verif.Model.LinkWrite
import Verif.Props.Links
import Verif.Props.PanicCheckout
/-! Adding to file systems with symbolic links. -/
namespace Snap.Props
open Snap
set_option linter.unusedSectionVars false
variable [Serde] [LawfulSerde]

namespace Spec

/-- `d'` is `d` with directories and files added: what there was is there as it was, and nothing new is a link. -/
structure Adds (d d' : Disk) : Prop where
  cwd : d'.cwd = d.cwd
  limit : d'.limit = d.limit
  kept : ∀ q e, d.at q = some e → d'.at q = some e
  new : ∀ q, d.at q = none → d'.at q = none ∨ d'.at q = some .dir ∨ ∃ c md, d'.at q = some (.file c md)

/-- The path, and the directories on the way to it by its text. -/
inductive OnWay : Path → Path → Prop where
  | self (p : Path) : OnWay p p
  | up {p q r : Path} : Path.parent p = some q → OnWay q r → OnWay p r

end Spec

open Spec

theorem lfind_map_set (l : List (List Bytes × LinkEnt)) (q : List Bytes) (e : LinkEnt) (x : List Bytes) :
    ((l.map fun y => if y.1 == q then (q, e) else y).find? (·.1 == x)).map (·.2) =
      if x = q then (if l.any (·.1 == q) then some e else none) else (l.find? (·.1 == x)).map (·.2) := by
  induction l with
  | nil => simp
  | cons y l ih =>
    simp only [List.map_cons, List.find?_cons, List.any_cons]
    by_cases hy : (y.1 == q) = true
    · simp only [hy, if_true, Bool.true_or]
      have hyq : y.1 = q := by simpa using hy
      by_cases hx : x = q
      · subst hx; simp
      · have h1 : (q == x) = false := by simpa using fun h => hx h.symm
        have h2 : (y.1 == x) = false := by rw [hyq]; exact h1
        simp only [h1, h2]
        rw [ih, if_neg hx, if_neg hx]
    · have hy' : (y.1 == q) = false := by simpa using hy
      simp only [hy', Bool.false_or]
      by_cases hx : x = q
      · subst hx
        simp only [Bool.false_eq_true, if_false, hy']
        exact ih.trans (by simp)
      · by_cases hyx : (y.1 == x) = true
        · simp [hyx, hx]
        · have hyx' : (y.1 == x) = false := by simpa using hyx
          simp only [Bool.false_eq_true, if_false, hyx']
          exact ih

theorem dat_set (d : Disk) {q : List Bytes} (hq : q ≠ []) (e : LinkEnt) (x : List Bytes) : (d.set q e).at x = if x = q then some e else d.at x := by
  unfold LinkFs.at Disk.set
  by_cases hx0 : x = []
  · subst hx0
    simp [Ne.symm hq]
  · simp only [hx0, if_false]
    split
    · rename_i h
      rw [lfind_map_set, h]
      by_cases hx : x = q <;> simp [hx]
    · rename_i h
      have hn : d.ents.find? (·.1 == q) = none := by
        rw [List.find?_eq_none]
        intro y hy hq
        exact h (List.any_eq_true.mpr ⟨y, hy, hq⟩)
      rw [List.find?_append]
      by_cases hx : x = q
      · subst hx; simp [hn]
      · have h2 : (q == x) = false := by simpa using fun h => hx h.symm
        simp [hx, h2]

theorem lat_ne_root {fs : LinkFs} {q : List Bytes} (h : fs.at q = none) : q ≠ [] := by
  rintro rfl
  simp [LinkFs.at] at h

theorem lat_file_ne_root {fs : LinkFs} {q : List Bytes} {c : Bytes} {md : FileMeta} (h : fs.at q = some (.file c md)) : q ≠ [] := by
  rintro rfl
  simp [LinkFs.at] at h

theorem Spec.Adds.refl (d : Disk) : Adds d d := ⟨rfl, rfl, fun _ _ h => h, fun _ h => Or.inl h⟩

theorem Spec.Adds.trans {a b c : Disk} (h : Adds a b) (h' : Adds b c) : Adds a c := by
  refine ⟨h'.cwd.trans h.cwd, h'.limit.trans h.limit, fun q e he => h'.kept q e (h.kept q e he), fun q hq => ?_⟩
  rcases h.new q hq with h1 | h1 | ⟨x, md, h1⟩
  · exact h'.new q h1
  · exact Or.inr (Or.inl (h'.kept _ _ h1))
  · exact Or.inr (Or.inr ⟨x, md, h'.kept _ _ h1⟩)

theorem Spec.Adds.vacant {d d' : Disk} (h : Adds d d') {q : List Bytes} (hq : d'.at q = none) : d.at q = none := by
  cases hd : d.at q with
  | none => rfl
  | some e => rw [h.kept q e hd] at hq; simp at hq

/-- A new directory or file in a vacant place. -/
theorem Spec.Adds.set {d d' : Disk} (h : Adds d d') {q : List Bytes} (hq : d.at q = none) {e : LinkEnt} (he : e = .dir ∨ ∃ c md, e = .file c md) : Adds d (d'.set q e) := by
  have hne := lat_ne_root hq
  refine ⟨h.cwd, h.limit, fun x f hf => ?_, fun x hx => ?_⟩
  · rw [dat_set _ hne, if_neg (fun h => by subst h; rw [hq] at hf; simp at hf)]
    exact h.kept x f hf
  · rw [dat_set _ hne]
    split
    · rcases he with rfl | ⟨c, md, rfl⟩
      · exact Or.inr (Or.inl rfl)
      · exact Or.inr (Or.inr ⟨c, md, rfl⟩)
    · exact h.new x hx

theorem Spec.Adds.congr {d d' e : Disk} (h : Adds d d') (he : e.toLinkFs = d'.toLinkFs) : Adds d e := by
  obtain ⟨a, b, c, f⟩ := h
  exact ⟨by rw [he]; exact a, by rw [he]; exact b, by rw [he]; exact c, by rw [he]; exact f⟩

/-- What matters to the ways through `d` is there in `d'`. -/
structure Ways (d d' : LinkFs) : Prop where
  cwd : d'.cwd = d.cwd
  limit : d'.limit = d.limit
  dirs : ∀ q, d.at q = some .dir → d'.at q = some .dir
  links : ∀ q t, d.at q = some (.link t) → d'.at q = some (.link t)
  others : ∀ q t, d'.at q = some (.link t) → d.at q = some (.link t)

theorem Spec.Adds.ways {d d' : Disk} (h : Adds d d') : Ways d.toLinkFs d'.toLinkFs := by
  refine ⟨h.cwd, h.limit, fun q hq => h.kept q _ hq, fun q t hq => h.kept q _ hq, fun q t hq => ?_⟩
  cases hd : d.at q with
  | some e => rw [h.kept _ _ hd] at hq; exact hq
  | none => rcases h.new q hd with h1 | h1 | ⟨c, md, h1⟩ <;> rw [h1] at hq <;> simp at hq

/-- Where a path led it leads. -/
theorem ways_walk {d d' : LinkFs} (h : Ways d d') {k : Nat} {cur l : List Bytes} {r : Nat × List Bytes} (hr : d.walk k cur l = .ok r) : d'.walk k cur l = .ok r := by
  have key : ∀ (r : Nat × List Bytes) k (next next' : List Bytes → List Bytes → Res (Nat × List Bytes)), (∀ cur l r, next cur l = .ok r → next' cur l = .ok r) →
      ∀ l cur, d.steps k next cur l = .ok r → d'.steps k next' cur l = .ok r := by
    intro r k next next' hn l
    induction l with
    | nil => intro cur hr; exact hr
    | cons s l ih =>
      intro cur hr
      simp only [LinkFs.steps] at hr ⊢
      cases hc : d.at cur with
      | none => rw [hc] at hr; simp at hr
      | some e =>
        rw [hc] at hr
        cases e with
        | dir =>
          rw [h.dirs _ hc]
          simp only at hr ⊢
          split
          · rename_i h1; rw [if_pos h1] at hr; exact ih _ hr
          · rename_i h1
            rw [if_neg h1] at hr
            split
            · rename_i h2; rw [if_pos h2] at hr; exact ih _ hr
            · rename_i h2
              rw [if_neg h2] at hr
              split at hr
              · rename_i t ht
                rw [h.links _ _ ht]
                simp only
                split
                · rename_i h3; rw [if_pos h3] at hr; simp at hr
                · rename_i h3; rw [if_neg h3] at hr; exact hn _ _ _ hr
              · rename_i hno
                split
                · rename_i t ht; exact absurd (h.others _ _ ht) (hno t)
                · exact ih _ hr
        | _ => simp at hr
  induction k generalizing cur l r with
  | zero => exact key _ 0 _ _ (fun _ _ _ h => h) l cur hr
  | succ k ih => exact key _ (k + 1) _ _ (fun _ _ _ h => ih h) l cur hr

theorem ways_locate {d d' : LinkFs} (h : Ways d d') {p : Path} {r : Nat × List Bytes} (hr : d.locate p = .ok r) : d'.locate p = .ok r := by
  unfold LinkFs.locate at hr ⊢
  split at hr
  · simp at hr
  · split at hr
    · simp at hr
    · rename_i h1 h2
      rw [if_neg h1, if_neg h2, h.cwd, h.limit]
      exact ways_walk h hr

theorem adds_walk {d d' : Disk} (h : Adds d d') {k : Nat} {cur l : List Bytes} {r : Nat × List Bytes} (hr : d.walk k cur l = .ok r) : d'.walk k cur l = .ok r :=
  ways_walk h.ways hr

theorem adds_locate {d d' : Disk} (h : Adds d d') {p : Path} {r : Nat × List Bytes} (hr : d.locate p = .ok r) : d'.locate p = .ok r :=
  ways_locate h.ways hr

/-- Slashes at the end stay in a directory. -/
theorem lwalk_empties (fs : LinkFs) {k : Nat} {q : List Bytes} (hq : fs.at q = some .dir) (m : Nat) : fs.walk k q (List.replicate m []) = .ok (k, q) := by
  have : ∀ next, fs.steps k next q (List.replicate m []) = .ok (k, q) := by
    intro next
    induction m with
    | zero => rfl
    | succ m ih => simp only [List.replicate_succ, LinkFs.steps, hq]; simpa using ih
  cases k with
  | zero => exact this _
  | succ k => exact this _

theorem dropTrailing_replicate (l : List Bytes) : ∃ m, l = dropTrailing l ++ List.replicate m [] := by
  induction l with
  | nil => exact ⟨0, rfl⟩
  | cons s l ih =>
    obtain ⟨m, hm⟩ := ih
    unfold dropTrailing
    cases hd : dropTrailing l with
    | nil =>
      rw [hd] at hm
      simp only [List.nil_append] at hm
      by_cases h : s = []
      · exact ⟨m + 1, by rw [hm, h]; rfl⟩
      · exact ⟨m, by rw [hm]; simp [h]⟩
    | cons a t => exact ⟨m, by rw [hd] at hm; simp only [List.cons_append, List.cons.injEq, true_and]; exact hm⟩

/-- The place where something new is made is where the path leads afterwards. -/
theorem spot_locate {d d' : Disk} (ha : Adds d d') {start segs q : List Bytes} (hs : d.spot start segs = .ok q) (hq : d.at q = none) (hne : segs ≠ []) :
    ∃ k, d'.walk d.limit start segs = .ok (k, q) := by
  obtain ⟨l, s, rfl⟩ : ∃ l s, segs = l ++ [s] := by
    rcases List.eq_nil_or_concat segs with h | ⟨l, s, h⟩
    · exact absurd h hne
    · exact ⟨l, s, by simpa using h⟩
  unfold LinkFs.spot at hs
  simp only [List.getLast?_append, List.getLast?_singleton, Option.some_or, List.dropLast_concat] at hs
  cases hw : d.walk d.limit start l with
  | err e => rw [hw] at hs; cases hs
  | panic => rw [hw] at hs; cases hs
  | fuel => rw [hw] at hs; cases hs
  | ok c =>
    rw [hw] at hs
    simp only [Res.ok_bind] at hs
    refine ⟨c.1, ?_⟩
    rw [lwalk_append, adds_walk ha hw]
    simp only [Res.ok_bind]
    cases hc : d.at c.2 with
    | none => rw [hc] at hs; simp at hs
    | some e =>
      rw [hc] at hs
      cases e with
      | dir =>
        simp only [Res.ok.injEq] at hs
        have key : ∀ next, d'.steps c.1 next c.2 [s] = .ok (c.1, q) := by
          intro next
          simp only [LinkFs.steps, ha.kept _ _ hc]
          split
          · rename_i h; rw [if_pos h] at hs; rw [hs]
          · rename_i h
            rw [if_neg h] at hs
            split
            · rename_i h'; rw [if_pos h'] at hs; rw [hs]
            · rename_i h'
              rw [if_neg h'] at hs
              subst hs
              rcases ha.new _ hq with h1 | h1 | ⟨x, md, h1⟩ <;> simp [h1]
        rcases hk : c.1 with _ | k
        · rw [hk] at key; exact key _
        · rw [hk] at key; exact key _
      | _ => simp at hs

theorem splitSlash_ne (p : Path) : splitSlash p ≠ [] := by
  cases p with
  | nil => simp [splitSlash]
  | cons b p => 
    unfold splitSlash
    split
    · simp
    · split <;> simp

theorem spotOf_id {d d' : Disk} (ha : Adds d d') {p : Path} {q : List Bytes} (hs : d.spotOf id p = .ok q) (hq : d.at q = none) : ∃ k, d'.locate p = .ok (k, q) := by
  unfold LinkFs.spotOf at hs
  unfold LinkFs.locate
  split at hs
  · simp at hs
  · split at hs
    · simp at hs
    · rename_i h1 h2
      rw [if_neg h1, if_neg h2, ha.cwd, ha.limit]
      exact spot_locate ha hs hq (splitSlash_ne p)

theorem spotOf_trailing {d d' : Disk} (ha : Adds d d') {p : Path} {q : List Bytes} (hs : d.spotOf dropTrailing p = .ok q) (hq : d.at q = none) (hd : d'.at q = some .dir) :
    ∃ k, d'.locate p = .ok (k, q) := by
  unfold LinkFs.spotOf at hs
  unfold LinkFs.locate
  split at hs
  · simp at hs
  · split at hs
    · simp at hs
    · rename_i h1 h2
      rw [if_neg h1, if_neg h2, ha.cwd, ha.limit]
      obtain ⟨m, hm⟩ := dropTrailing_replicate (splitSlash p)
      by_cases hnil : dropTrailing (splitSlash p) = []
      · exfalso
        rw [hnil] at hs
        simp only [LinkFs.spot, List.getLast?_nil, Res.ok.injEq] at hs
        by_cases hab : Path.isAbs p = true
        · rw [if_pos hab] at hs; exact lat_ne_root hq hs.symm
        · cases p with
          | nil => exact h1 rfl
          | cons b bs =>
            have hb : b ≠ 47 := by rintro rfl; simp [Path.isAbs] at hab
            unfold splitSlash at hnil
            rw [if_neg hb] at hnil
            cases hbs : splitSlash bs with
            | nil => rw [hbs] at hnil; exact dropTrailing_ne (by simp) hnil
            | cons x xs => rw [hbs] at hnil; exact dropTrailing_ne (by simp) hnil
      · obtain ⟨k, hk⟩ := spot_locate ha hs hq hnil
        rw [hm, lwalk_append, hk]
        exact ⟨k, lwalk_empties _ hd m⟩

/-! ### What is new is where one of the paths leads -/

/-- Only added, and each new place is where one of the paths leads. -/
structure Tracks (P : Path → Prop) (d d' : Disk) : Prop where
  adds : Adds d d'
  place : ∀ q, d.at q = none → d'.at q ≠ none → ∃ p k, P p ∧ d'.locate p = .ok (k, q)

variable {P : Path → Prop} {d0 : Disk}

theorem Tracks.congr {d d' e : Disk} (h : Tracks P d d') (he : e.toLinkFs = d'.toLinkFs) : Tracks P d e :=
  ⟨h.adds.congr he, by rw [he]; exact h.place⟩

theorem Tracks.set {d d' : Disk} (h : Tracks P d d') {q : List Bytes} (hq : d'.at q = none) {e : LinkEnt} (he : e = .dir ∨ ∃ c md, e = .file c md)
    {p : Path} (hp : P p) (hl : ∃ k, (d'.set q e).locate p = .ok (k, q)) : Tracks P d (d'.set q e) := by
  have ha : Adds d' (d'.set q e) := (Adds.refl d').set hq he
  refine ⟨h.adds.trans ha, fun x hx hn => ?_⟩
  by_cases hxq : x = q
  · subst hxq
    obtain ⟨k, hk⟩ := hl
    exact ⟨p, k, hp, hk⟩
  · rw [dat_set _ (lat_ne_root hq), if_neg hxq] at hn
    obtain ⟨p, k, h1, h2⟩ := h.place x hx hn
    exact ⟨p, k, h1, adds_locate ha h2⟩

theorem dcall_pres {α : Type} {I : Disk → Prop} (hI : ∀ d e, e.toLinkFs = d.toLinkFs → I d → I e) {onFail : Nat → Disk → Disk} {x : SM Disk α} {Q : α → Prop}
    (hf : ∀ n d, I d → I (onFail n d)) (hx : Pres I x Q) : Pres I (Disk.call onFail x) Q := by
  intro d hd
  unfold Disk.call
  split
  · exact ⟨hf _ _ (hI d _ rfl hd), fun a ha => by simp at ha⟩
  · exact hx _ (hI d _ rfl hd)

theorem tracks_mkdir {p : Path} (hp : P p) : Pres (Tracks P d0) (Disk.mkdir p) (fun _ => True) := by
  refine dcall_pres (fun d e he h => h.congr he) (fun _ _ h => h) fun d hd => ⟨?_, fun _ _ => trivial⟩
  cases hs : d.spotOf dropTrailing p with
  | ok q =>
    simp only
    cases hq : d.at q with
    | none =>
      have ha : Adds d (d.set q .dir) := (Adds.refl d).set hq (Or.inl rfl)
      exact hd.set hq (Or.inl rfl) hp (spotOf_trailing ha hs hq (by rw [dat_set _ (lat_ne_root hq), if_pos rfl]))
    | some e => exact hd
  | err e => exact hd
  | panic => exact hd
  | fuel => exact hd

theorem tracks_createDirAllN (n : Nat) {p : Path} (hp : ∀ r, OnWay p r → P r) : Pres (Tracks P d0) (Disk.createDirAllN n p) (fun _ => True) := by
  induction n generalizing p with
  | zero => exact fun s hs => ⟨hs, fun _ _ => trivial⟩
  | succ n ih =>
    intro d hd
    refine ⟨?_, fun _ _ => trivial⟩
    unfold Disk.createDirAllN
    split
    · exact hd
    · have h1 := (tracks_mkdir (d0 := d0) (hp p (.self p)) d hd).1
      split
      · rename_i d1 e1; rw [e1] at h1; exact h1
      · rename_i d1 e1
        rw [e1] at h1
        cases hpar : Path.parent p with
        | none => exact h1
        | some q =>
          have h2 := (ih (p := q) (fun r hr => hp r (.up hpar hr)) d1 h1).1
          simp only
          split
          · rename_i d2 e2
            rw [e2] at h2
            have h3 := (tracks_mkdir (d0 := d0) (hp p (.self p)) d2 h2).1
            split
            · rename_i d3 e3; rw [e3] at h3; exact h3
            · rename_i r3 d3 _ e3
              rw [e3] at h3
              split <;> exact h3
          · exact h2
      · rename_i d1 _ _ e1
        rw [e1] at h1
        split <;> exact h1

theorem tracks_createNew {p : Path} (hp : P p) : Pres (Tracks P d0) (Disk.createNew p) (fun f => d0.at f = none) := by
  refine dcall_pres (fun d e he h => h.congr he) (fun _ _ h => h) fun d hd => ?_
  cases hs : d.spotOf id p with
  | ok q =>
    simp only
    split
    · cases hq : d.at q with
      | none =>
        have ha : Adds d (d.set q (.file [] d.nextMeta)) := (Adds.refl d).set hq (Or.inr ⟨_, _, rfl⟩)
        refine ⟨(hd.set hq (Or.inr ⟨_, _, rfl⟩) hp (spotOf_id ha hs hq)).congr rfl, fun f hf => ?_⟩
        simp only [Res.ok.injEq] at hf
        exact hf ▸ hd.adds.vacant hq
      | some e => exact ⟨hd, fun f hf => by simp at hf⟩
    · exact ⟨hd, fun f hf => by simp at hf⟩
  | err e => exact ⟨hd, fun f hf => by simp at hf⟩
  | panic => exact ⟨hd, fun f hf => by simp at hf⟩
  | fuel => exact ⟨hd, fun f hf => by simp at hf⟩

theorem Tracks.append {d d' : Disk} (h : Tracks P d d') {f : List Bytes} (hf : d.at f = none) (b : Bytes) : Tracks P d (Disk.append f b d') := by
  unfold Disk.append
  split
  · rename_i c md hc
    have ha := h.adds.set hf (e := .file (c ++ b) md) (Or.inr ⟨_, _, rfl⟩)
    refine ⟨ha, fun x hx hn => ?_⟩
    have hn' : d'.at x ≠ none := by
      rw [dat_set _ (lat_ne_root hf)] at hn
      split at hn
      · rename_i h; subst h; rw [hc]; simp
      · exact hn
    obtain ⟨p, k, h1, h2⟩ := h.place x hx hn'
    refine ⟨p, k, h1, ?_⟩
    refine ways_locate (d := d'.toLinkFs) (d' := (d'.set f (.file (c ++ b) md)).toLinkFs) ⟨rfl, rfl, fun q hq => ?_, fun q t hq => ?_, fun q t hq => ?_⟩ h2
    · rw [dat_set _ (lat_ne_root hf), if_neg (fun h => by subst h; rw [hc] at hq; simp at hq)]; exact hq
    · rw [dat_set _ (lat_ne_root hf), if_neg (fun h => by subst h; rw [hc] at hq; simp at hq)]; exact hq
    · rw [dat_set _ (lat_ne_root hf)] at hq
      split at hq
      · simp at hq
      · exact hq
  · exact h

theorem tracks_writeAll {f : List Bytes} (hf : d0.at f = none) (b : Bytes) : Pres (Tracks P d0) (Disk.writeAll f b) (fun _ => True) :=
  dcall_pres (fun d e he h => h.congr he) (fun _ _ h => h.append hf _) fun _ hd => ⟨hd.append hf _, fun _ _ => trivial⟩

/-- Fetching adds, on the ways to the files that are stored. -/
theorem tracks_get {db : Db} (n : Nat) (k : Key) (path : Path) (hP : ∀ rel, Comes db k rel false → ∀ r, OnWay (joins path rel) r → P r) :
    Pres (Tracks P d0) (getLinked db n k path) (fun _ => True) := by
  induction n generalizing k path with
  | zero => exact fun s hs => ⟨hs, fun _ _ => trivial⟩
  | succ n ih =>
    unfold getLinked
    refine Pres.bind (Pres.lift (Q := fun i => getItem db k = .ok i) fun _ h => h) fun i hi => ?_
    cases ht : i.itemtype with
    | dir =>
      refine Pres.each fun c hc => ih _ _ fun rel hrel r hr => ?_
      exact hP (c.2 :: rel) (.down hi ht hc hrel) r hr
    | file =>
      have hway : ∀ r, OnWay path r → P r := by
        have hcm : Comes db k [] false := by
          have := Comes.here hi
          rwa [ht] at this
        exact fun r hr => hP [] hcm r hr
      have hrest : Pres (Tracks P d0) (do
          let f ← Disk.createNew path
          match i.children with
          | c :: _ => readDataTo db (Disk.writeAll f) n c
          | [] => SM.panic) (fun _ => True) := by
        refine Pres.bind (tracks_createNew (hway _ (.self _))) fun f hf => ?_
        cases i.children with
        | nil => exact Pres.panic
        | cons c cs => exact pres_readDataTo db (fun b => tracks_writeAll hf b) n c
      simp only
      cases hpar : Path.parent path with
      | none => exact hrest
      | some q => exact Pres.bind (Q := fun _ => True) (tracks_createDirAllN _ fun r hr => hway r (.up hpar hr)) fun _ _ => hrest

theorem Tracks.refl (d : Disk) : Tracks P d d := ⟨Adds.refl d, fun _ h h' => absurd h h'⟩

end Snap.Props
