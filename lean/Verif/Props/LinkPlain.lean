import Verif.Props.LinkWrite
/-! Property C96, without links: the two models of writing agree. -/
namespace Snap.Props
open Snap
set_option linter.unusedSectionVars false
variable [Serde] [LawfulSerde]

/-- No dangling link. -/
def Unbroken (fs : Fs) : Prop := ∀ e ∈ fs.ents, e.2 ≠ .broken

/-- An entry that is not a dangling link, in the model with links. -/
def linkOf : Ent → LinkEnt
  | .dir => .dir
  | .file c md => .file c md
  | .special => .special
  | .broken => .link []

theorem Unbroken.at {fs : Fs} (h : Unbroken fs) (q : List Bytes) : fs.at q ≠ some .broken := by
  unfold Fs.at
  split
  · simp
  · intro hq
    obtain ⟨e, he, h2⟩ := Option.map_eq_some_iff.mp hq
    exact h e (List.mem_of_find?_eq_some he) h2

theorem asdisk_at (fs : Fs) (limit : Nat) (q : List Bytes) : (fs.asDisk limit).at q = (fs.at q).map linkOf := by
  refine (aslinks_at fs limit q).trans ?_
  cases fs.at q with
  | none => rfl
  | some e => cases e <;> rfl

theorem asdisk_eq (fs : Fs) (limit : Nat) : fs.asDisk limit = { ents := fs.ents.map fun e => (e.1, linkOf e.2), cwd := fs.cwd, limit := limit, faults := fs.faults, metas := fs.metas } := by
  unfold Fs.asDisk Fs.asLinks
  congr 2

theorem asdisk_set (fs : Fs) (limit : Nat) (q : List Bytes) (e : Ent) : (fs.set q e).asDisk limit = (fs.asDisk limit).set q (linkOf e) := by
  rw [asdisk_eq, asdisk_eq]
  unfold Fs.set Disk.set
  simp only [Disk.mk.injEq, LinkFs.mk.injEq, and_true]
  have : (fs.ents.map fun e => (e.1, linkOf e.2)).any (·.1 == q) = fs.ents.any (·.1 == q) := by
    rw [List.any_map]; rfl
  rw [this]
  split
  · rw [List.map_map, List.map_map]
    refine List.map_congr_left fun x _ => ?_
    simp only [Function.comp]
    split <;> rfl
  · rw [List.map_append]
    rfl

theorem asdisk_filter (fs : Fs) (limit : Nat) (keep : List Bytes → Bool) : ({ fs with ents := fs.ents.filter fun e => keep e.1 } : Fs).asDisk limit = (fs.asDisk limit).only keep := by
  rw [asdisk_eq, asdisk_eq]
  unfold Disk.only
  simp only [List.filter_map, Disk.mk.injEq, LinkFs.mk.injEq, and_true]
  rfl

theorem Unbroken.set {fs : Fs} (h : Unbroken fs) (q : List Bytes) {e : Ent} (he : e ≠ .broken) : Unbroken (fs.set q e) := by
  intro x hx
  unfold Fs.set at hx
  simp only at hx
  split at hx
  · obtain ⟨y, hy, rfl⟩ := List.mem_map.mp hx
    split
    · exact he
    · exact h y hy
  · rcases List.mem_append.mp hx with hx | hx
    · exact h x hx
    · simp only [List.mem_singleton] at hx; subst hx; exact he

theorem Unbroken.filter {fs : Fs} (h : Unbroken fs) (f : List Bytes × Ent → Bool) : Unbroken { fs with ents := fs.ents.filter f } := fun e he => h e (List.mem_filter.mp he).1

theorem asdisk_walk {fs : Fs} (h : Unbroken fs) (limit k : Nat) (cur l : List Bytes) : (fs.asDisk limit).walk k cur l = (fs.walk cur l >>= fun q => .ok (k, q)) := by
  have key : ∀ next l cur, (fs.asDisk limit).steps k next cur l = (fs.walk cur l >>= fun q => .ok (k, q)) := by
    intro next l
    induction l with
    | nil => intro cur; rfl
    | cons s l ih =>
      intro cur
      simp only [LinkFs.steps, Fs.walk]
      rw [asdisk_at]
      cases hc : fs.at cur with
      | none => rfl
      | some e =>
        cases e with
        | dir =>
          simp only [Option.map_some, linkOf]
          split
          · exact ih _
          · split
            · exact ih _
            · rw [asdisk_at]
              cases hs : fs.at (cur ++ [s]) with
              | none => exact ih _
              | some e' =>
                cases e' with
                | broken => exact absurd hs (h.at _)
                | _ => exact ih _
        | broken => exact absurd hc (h.at _)
        | _ => rfl
  cases k with
  | zero => exact key _ l cur
  | succ k => exact key _ l cur

theorem asdisk_locate {fs : Fs} (h : Unbroken fs) (limit : Nat) (p : Path) : (fs.asDisk limit).locate p = (fs.locate p >>= fun q => .ok (limit, q)) := by
  unfold LinkFs.locate Fs.locate
  split
  · rfl
  · split
    · rfl
    · exact asdisk_walk h limit limit _ _

theorem asdisk_spot {fs : Fs} (h : Unbroken fs) (limit : Nat) (start segs : List Bytes) : (fs.asDisk limit).spot start segs = fs.walk start segs := by
  rcases List.eq_nil_or_concat segs with rfl | ⟨l, s, hl⟩
  · rfl
  · have hl : segs = l ++ [s] := by simpa using hl
    subst hl
    unfold LinkFs.spot
    simp only [List.getLast?_append, List.getLast?_singleton, Option.some_or, List.dropLast_concat]
    rw [asdisk_walk h, walk_append]
    cases fs.walk start l with
    | ok c =>
      simp only [Res.ok_bind, Fs.walk]
      rw [asdisk_at]
      cases hc : fs.at c with
      | none => rfl
      | some e => cases e with
        | broken => exact absurd hc (h.at _)
        | _ => rfl
    | _ => rfl

theorem asdisk_spotOf {fs : Fs} (h : Unbroken fs) (limit : Nat) (p : Path) : (fs.asDisk limit).spotOf id p = fs.locate p := by
  unfold LinkFs.spotOf Fs.locate
  split
  · rfl
  · split
    · rfl
    · exact asdisk_spot h limit _ _

theorem asdisk_metadata {fs : Fs} (h : Unbroken fs) (limit : Nat) (p : Path) : (fs.asDisk limit).metadata p = (fs.metadata p >>= fun e => .ok (linkOf e)) := by
  unfold LinkFs.metadata Fs.metadata
  rw [asdisk_locate h]
  cases fs.locate p with
  | ok q =>
    simp only [Res.ok_bind]
    rw [asdisk_at]
    cases hq : fs.at q with
    | none => rfl
    | some e => cases e with
      | broken => exact absurd hq (h.at _)
      | _ => rfl
  | _ => rfl

theorem asdisk_canonicalize {fs : Fs} (h : Unbroken fs) (limit : Nat) (p : Path) : (fs.asDisk limit).canonicalize p = fs.canonicalize p := by
  unfold LinkFs.canonicalize Fs.canonicalize
  rw [asdisk_locate h]
  cases fs.locate p with
  | ok q =>
    simp only [Res.ok_bind]
    rw [asdisk_at]
    cases hq : fs.at q with
    | none => rfl
    | some e => cases e with
      | broken => exact absurd hq (h.at _)
      | _ => rfl
  | _ => rfl

theorem asdisk_readDir {fs : Fs} (h : Unbroken fs) (limit : Nat) (p : Path) : (fs.asDisk limit).readDir p = fs.readDir p := by
  unfold LinkFs.readDir Fs.readDir
  rw [asdisk_locate h]
  cases fs.locate p with
  | ok q =>
    simp only [Res.ok_bind]
    rw [asdisk_at]
    cases hq : fs.at q with
    | none => rfl
    | some e => cases e with
      | broken => exact absurd hq (h.at _)
      | dir =>
        simp only [Option.map_some, linkOf, Res.ok.injEq]
        unfold LinkFs.names Fs.names Fs.asDisk Fs.asLinks
        simp only [List.filterMap_map]
        rfl
      | _ => rfl
  | _ => rfl

theorem asdisk_filterFn {fs : Fs} (h : Unbroken fs) (limit : Nat) (glob : Path → Bool) (dbPath p : Path) : (fs.asDisk limit).filter glob dbPath p = makeFilter glob dbPath fs p := by
  unfold LinkFs.filter makeFilter
  rw [asdisk_canonicalize h, asdisk_canonicalize h]

theorem asdisk_isDir {fs : Fs} (h : Unbroken fs) (limit : Nat) (p : Path) : (fs.asDisk limit).isDir p = fs.isDir p := by
  unfold LinkFs.isDir Fs.isDir
  rw [asdisk_metadata h]
  cases fs.metadata p with
  | ok e => cases e <;> rfl
  | _ => rfl

theorem asdisk_accepted {fs : Fs} (h : Unbroken fs) (limit : Nat) (glob : Path → Bool) (dbPath path : Path) (l : List Bytes) :
    acceptedLinked (fs.asDisk limit).toLinkFs glob dbPath path l = acceptedNames fs (makeFilter glob dbPath) path l := by
  induction l with
  | nil => rfl
  | cons n l ih =>
    unfold acceptedLinked acceptedNames
    rw [asdisk_filterFn h, ih]

/-! ### Computations -/

/-- The same computation in both models, as long as there is no dangling link. -/
def Plainly {α : Type} (limit : Nat) (x : SM Fs α) (y : SM Disk α) : Prop := ∀ fs, Unbroken fs → Unbroken (x fs).2 ∧ y (fs.asDisk limit) = ((x fs).1, (x fs).2.asDisk limit)

section
variable {limit : Nat}

theorem Plainly.bind {α β : Type} {x : SM Fs α} {y : SM Disk α} {f : α → SM Fs β} {g : α → SM Disk β} (h : Plainly limit x y) (hf : ∀ a, Plainly limit (f a) (g a)) :
    Plainly limit (x >>= f) (y >>= g) := by
  intro fs hw
  obtain ⟨h1, h2⟩ := h fs hw
  rw [SM.bind_apply, SM.bind_apply, h2]
  cases hx : x fs with
  | mk r fs' =>
    rw [hx] at h1
    cases r with
    | ok a => exact hf a fs' h1
    | _ => exact ⟨h1, rfl⟩

theorem Plainly.pure {α : Type} (a : α) : Plainly limit (Pure.pure a : SM Fs α) (Pure.pure a) := fun _ h => ⟨h, rfl⟩
theorem Plainly.lift {α : Type} (r : Res α) : Plainly limit (SM.lift r : SM Fs α) (SM.lift r) := fun _ h => ⟨h, rfl⟩
theorem Plainly.panic {α : Type} : Plainly limit (SM.panic : SM Fs α) SM.panic := fun _ h => ⟨h, rfl⟩

theorem Plainly.read {α : Type} {f : Fs → Res α} {g : Disk → Res α} (h : ∀ fs, Unbroken fs → g (fs.asDisk limit) = f fs) : Plainly limit (SM.read f) (SM.read g) :=
  fun fs hw => ⟨hw, by show (g _, _) = _; rw [h fs hw]; rfl⟩

theorem Plainly.each {α : Type} {f : α → SM Fs Unit} {g : α → SM Disk Unit} {l : List α} (h : ∀ a, Plainly limit (f a) (g a)) : Plainly limit (SM.each f l) (SM.each g l) := by
  induction l with
  | nil => exact Plainly.pure ()
  | cons a l ih => exact Plainly.bind (h a) fun _ => ih

theorem Plainly.call {α : Type} {a : Nat → Fs → Fs} {b : Nat → Disk → Disk} {x : SM Fs α} {y : SM Disk α} (hf : ∀ n fs, Unbroken fs → Unbroken (a n fs) ∧ b n (fs.asDisk limit) = (a n fs).asDisk limit)
    (hx : Plainly limit x y) : Plainly limit (Fs.call a x) (Disk.call b y) := by
  intro fs hw
  have hcall : ∀ t, ({ fs with faults := t } : Fs).asDisk limit = { fs.asDisk limit with faults := t } := fun _ => rfl
  have hfl : (fs.asDisk limit).faults = fs.faults := rfl
  unfold Fs.call Disk.call
  rw [hfl]
  cases hfs : fs.faults with
  | nil => rw [← hcall]; exact hx { fs with faults := [].tail } hw
  | cons o t =>
    cases o with
    | none => rw [← hcall]; exact hx { fs with faults := (none :: t).tail } hw
    | some n =>
      simp only
      rw [← hcall, (hf n { fs with faults := t } hw).2]
      exact ⟨(hf n { fs with faults := t } hw).1, rfl⟩

theorem plainly_mkdir (p : Path) : Plainly limit (Fs.mkdir p) (Disk.mkdir p) := by
  refine Plainly.call (fun _ _ h => ⟨h, rfl⟩) fun fs hw => ?_
  unfold LinkFs.spotOf
  split
  · exact ⟨hw, rfl⟩
  · split
    · exact ⟨hw, rfl⟩
    · have e : (fs.asDisk limit).spot (if Path.isAbs p = true then [] else (fs.asDisk limit).cwd) (dropTrailing (splitSlash p)) =
          fs.walk (if Path.isAbs p = true then [] else fs.cwd) (dropTrailing (splitSlash p)) := asdisk_spot hw limit _ _
      rw [e]
      cases fs.walk (if Path.isAbs p = true then [] else fs.cwd) (dropTrailing (splitSlash p)) with
      | ok q =>
        simp only
        rw [asdisk_at]
        cases fs.at q with
        | none => exact ⟨hw.set q (by simp), by simp only [Option.map_none]; rw [asdisk_set]; rfl⟩
        | some e => exact ⟨hw, rfl⟩
      | _ => exact ⟨hw, rfl⟩

theorem plainly_createDirAllN (n : Nat) (p : Path) : Plainly limit (Fs.createDirAllN n p) (Disk.createDirAllN n p) := by
  induction n generalizing p with
  | zero => exact fun _ h => ⟨h, rfl⟩
  | succ n ih =>
    intro fs hw
    unfold Fs.createDirAllN Disk.createDirAllN
    split
    · exact ⟨hw, rfl⟩
    · obtain ⟨h1, h2⟩ := plainly_mkdir (limit := limit) p fs hw
      rw [h2]
      have hlast : ∀ f : Fs, Unbroken f → Unbroken (if f.isDir p then ((.ok (), f) : Res Unit × Fs) else (.err .io, f)).2 ∧
          (if (f.asDisk limit).isDir p then ((.ok (), f.asDisk limit) : Res Unit × Disk) else (.err .io, f.asDisk limit)) =
            ((if f.isDir p then ((.ok (), f) : Res Unit × Fs) else (.err .io, f)).1, (if f.isDir p then ((.ok (), f) : Res Unit × Fs) else (.err .io, f)).2.asDisk limit) := by
        intro f hf
        rw [asdisk_isDir hf]
        split <;> exact ⟨hf, rfl⟩
      cases hm : Fs.mkdir p fs with
      | mk r fs1 =>
        rw [hm] at h1
        cases r with
        | ok u => exact ⟨h1, rfl⟩
        | err e =>
          cases e with
          | enoent =>
            simp only
            cases Path.parent p with
            | none => exact ⟨h1, rfl⟩
            | some q =>
              simp only
              obtain ⟨h3, h4⟩ := ih q fs1 h1
              rw [h4]
              cases hn : Fs.createDirAllN n q fs1 with
              | mk r fs2 =>
                rw [hn] at h3
                cases r with
                | ok u =>
                  simp only
                  obtain ⟨h5, h6⟩ := plainly_mkdir (limit := limit) p fs2 h3
                  rw [h6]
                  cases hm2 : Fs.mkdir p fs2 with
                  | mk r fs3 =>
                    rw [hm2] at h5
                    cases r with
                    | ok u => exact ⟨h5, rfl⟩
                    | _ => exact hlast fs3 h5
                | _ => exact ⟨h3, rfl⟩
          | _ => exact hlast fs1 h1
        | _ => exact hlast fs1 h1

theorem plainly_createNew (p : Path) : Plainly limit (Fs.createNew p) (Disk.createNew p) := by
  refine Plainly.call (fun _ _ h => ⟨h, rfl⟩) fun fs hw => ?_
  rw [asdisk_spotOf hw]
  cases fs.locate p with
  | ok q =>
    simp only
    split
    · rw [asdisk_at]
      cases fs.at q with
      | none =>
        refine ⟨hw.set q (by simp), ?_⟩
        simp only [Option.map_none, Prod.mk.injEq, true_and]
        have := asdisk_set fs limit q (.file [] fs.nextMeta)
        show _ = ({ (fs.set q (.file [] fs.nextMeta)).asDisk limit with metas := fs.metas.tail } : Disk)
        rw [this]
        rfl
      | some e => exact ⟨hw, rfl⟩
    · exact ⟨hw, rfl⟩
  | _ => exact ⟨hw, rfl⟩

theorem plainly_create (p : Path) : Plainly limit (Fs.create p) (Disk.create p) := by
  refine Plainly.call (fun _ _ h => ⟨h, rfl⟩) fun fs hw => ?_
  rw [asdisk_locate hw]
  cases fs.locate p with
  | ok q =>
    simp only [Res.ok_bind]
    split
    · rw [asdisk_at]
      cases hq : fs.at q with
      | none =>
        refine ⟨hw.set q (by simp), ?_⟩
        simp only [Option.map_none, Prod.mk.injEq, true_and]
        show _ = ({ (fs.set q (.file [] fs.nextMeta)).asDisk limit with metas := fs.metas.tail } : Disk)
        rw [asdisk_set]
        rfl
      | some e =>
        cases e with
        | file c md =>
          refine ⟨hw.set q (by simp), ?_⟩
          simp only [Option.map_some, linkOf, Prod.mk.injEq, true_and]
          show _ = ({ (fs.set q (.file [] ⟨md.ino, fs.nextMeta.mtime⟩)).asDisk limit with metas := fs.metas.tail } : Disk)
          rw [asdisk_set]
          rfl
        | _ => exact ⟨hw, rfl⟩
    · exact ⟨hw, rfl⟩
  | _ => exact ⟨hw, rfl⟩

theorem plainly_append (q : List Bytes) (b : Bytes) (fs : Fs) (hw : Unbroken fs) : Unbroken (Fs.append q b fs) ∧ Disk.append q b (fs.asDisk limit) = (Fs.append q b fs).asDisk limit := by
  unfold Fs.append Disk.append
  rw [asdisk_at]
  cases hq : fs.at q with
  | none => exact ⟨hw, rfl⟩
  | some e =>
    cases e with
    | file c md => exact ⟨hw.set q (by simp), by simp only [Option.map_some, linkOf]; rw [asdisk_set]; rfl⟩
    | _ => exact ⟨hw, rfl⟩

theorem plainly_writeAll (q : List Bytes) (b : Bytes) : Plainly limit (Fs.writeAll q b) (Disk.writeAll q b) := by
  refine Plainly.call (fun n fs h => plainly_append q _ fs h) fun fs hw => ?_
  obtain ⟨h1, h2⟩ := plainly_append (limit := limit) q b fs hw
  exact ⟨h1, by show (_, _) = (_, _); rw [h2]; rfl⟩

theorem plainly_readDataTo (db : Db) {s : Bytes → SM Fs Unit} {t : Bytes → SM Disk Unit} (h : ∀ b, Plainly limit (s b) (t b)) (n : Nat) (k : Key) :
    Plainly limit (readDataTo db s n k) (readDataTo db t n k) := by
  induction n generalizing k with
  | zero => exact fun _ h => ⟨h, rfl⟩
  | succ n ih =>
    unfold readDataTo
    refine Plainly.bind (Plainly.lift _) fun o => ?_
    split
    · exact Plainly.each fun k => ih k
    · exact h _
    · split
      · exact ih _
      · exact Plainly.panic
    · exact Plainly.panic

theorem plainly_get (db : Db) (n : Nat) (k : Key) (path : Path) : Plainly limit (getFsItem db n k path) (getLinked db n k path) := by
  induction n generalizing k path with
  | zero => exact fun _ h => ⟨h, rfl⟩
  | succ n ih =>
    unfold getFsItem getLinked
    refine Plainly.bind (Plainly.lift _) fun i => ?_
    cases i.itemtype with
    | dir => exact Plainly.each fun c => ih _ _
    | file =>
      have hrest : Plainly limit (do
          let f ← Fs.createNew path
          match i.children with
          | c :: _ => readDataTo db (Fs.writeAll f) n c
          | [] => SM.panic) (do
          let f ← Disk.createNew path
          match i.children with
          | c :: _ => readDataTo db (Disk.writeAll f) n c
          | [] => SM.panic) := by
        refine Plainly.bind (plainly_createNew path) fun f => ?_
        cases i.children with
        | nil => exact Plainly.panic
        | cons c cs => exact plainly_readDataTo db (fun b => plainly_writeAll f b) n c
      simp only
      cases Path.parent path with
      | none => exact hrest
      | some q => exact Plainly.bind (plainly_createDirAllN _ q) fun _ => hrest

theorem plainly_remove (path : Path) (m : Bytes) : Plainly limit (removeExtra path m) (removeLinked path m) := by
  unfold removeExtra removeLinked
  split
  · intro fs hw
    rw [SM.bind_apply, SM.bind_apply, SM.read_apply, SM.read_apply]
    rw [asdisk_metadata hw]
    cases hm : fs.metadata (Path.join path m) with
    | ok e =>
      cases e with
      | dir =>
        simp only [Res.ok_bind, linkOf]
        obtain ⟨q, hl, hq⟩ : ∃ q, fs.locate (Path.join path m) = .ok q ∧ fs.at q = some .dir := by
          unfold Fs.metadata at hm
          obtain ⟨q, h1, h2⟩ := Res.bind_eq_ok hm
          refine ⟨q, h1, ?_⟩
          cases hq : fs.at q with
          | none => rw [hq] at h2; simp at h2
          | some e => rw [hq] at h2; cases e <;> simp at h2 ⊢
        unfold Fs.removeDirAll Disk.removeDirAll
        rw [asdisk_spotOf hw, hl]
        simp only
        rw [asdisk_at, hq]
        simp only [Option.map_some, linkOf]
        have e1 : Fs.call (fun n fs => { fs with ents := fs.ents.filter fun e => !(q.isPrefixOf e.1 && e.1.length > q.length + n) })
            (fun fs => if fs.isDirAt q then (.ok (), Fs.prune q fs) else (.err .io, fs)) fs =
            Fs.call (fun n fs => { fs with ents := fs.ents.filter fun e => !(q.isPrefixOf e.1 && e.1.length > q.length + n) }) (fun fs => ((.ok (), Fs.prune q fs) : Res Unit × Fs)) fs := by
          unfold Fs.call
          split
          · rfl
          · have : ({ fs with faults := fs.faults.tail } : Fs).isDirAt q = true := by
              show (fs.at q == some .dir) = true
              rw [hq]; rfl
            simp only [this, if_true]
        rw [e1]
        refine Plainly.call (fun n f h => ⟨h.filter _, (asdisk_filter f limit fun x => !(q.isPrefixOf x && decide (x.length > q.length + n))).symm⟩) ?_ fs hw
        intro f h
        refine ⟨h.filter _, ?_⟩
        show (_, _) = (_, _)
        rw [← asdisk_filter]
        rfl
      | file c md =>
        simp only [Res.ok_bind, linkOf]
        refine Plainly.call (fun _ _ h => ⟨h, rfl⟩) (fun f h => ?_) fs hw
        rw [asdisk_spotOf h]
        cases f.locate (Path.join path m) with
        | ok q =>
          simp only
          rw [asdisk_at]
          cases f.at q with
          | none => exact ⟨h, rfl⟩
          | some e =>
            have hr : Unbroken { f with ents := f.ents.filter fun e => e.1 ≠ q } ∧ ((.ok (), (f.asDisk limit).only (· != q)) : Res Unit × Disk) = (.ok (), ({ f with ents := f.ents.filter fun e => e.1 ≠ q } : Fs).asDisk limit) := by
              refine ⟨h.filter _, ?_⟩
              rw [← asdisk_filter]
              congr 3
              refine List.filter_congr fun x _ => ?_
              by_cases hx : x.1 = q <;> simp [hx]
            cases e with
            | dir => exact ⟨h, rfl⟩
            | _ => exact hr
        | _ => exact ⟨h, rfl⟩
      | special => exact ⟨hw, rfl⟩
      | broken =>
        exfalso
        unfold Fs.metadata at hm
        obtain ⟨q, _, h2⟩ := Res.bind_eq_ok hm
        cases hq : fs.at q with
        | none => rw [hq] at h2; simp at h2
        | some e => rw [hq] at h2; cases e <;> simp at h2
    | _ => exact ⟨hw, rfl⟩
  · exact Plainly.panic

theorem plainly_checkout (db : Db) (glob : Path → Bool) (dbPath : Path) (iter : List Bytes → List Bytes) (n : Nat) (k : Key) (path : Path) :
    Plainly limit (checkoutFsItem db (makeFilter glob dbPath) iter n k path) (checkoutLinked db glob dbPath iter n k path) := by
  induction n generalizing k path with
  | zero => exact fun _ h => ⟨h, rfl⟩
  | succ n ih =>
    unfold checkoutFsItem checkoutLinked
    refine Plainly.bind (Plainly.lift _) fun i => ?_
    cases i.itemtype with
    | dir =>
      refine Plainly.bind (Plainly.read fun fs h => asdisk_readDir h limit path) fun all => ?_
      refine Plainly.bind (Plainly.read fun fs h => asdisk_accepted h limit glob dbPath path all) fun mine => ?_
      refine Plainly.bind (Plainly.each fun m => plainly_remove path m) fun _ => ?_
      exact Plainly.each fun c => Plainly.bind (plainly_createDirAllN _ path) fun _ => ih _ _
    | file =>
      refine Plainly.bind (plainly_create path) fun f => ?_
      split
      · cases i.children with
        | nil => exact Plainly.panic
        | cons c cs => exact plainly_readDataTo db (fun b => plainly_writeAll f b) n c
      · exact Plainly.panic

end

/-- **C96**: where there are no links, fetching is what the model without links says. -/
theorem C96_plain_fetch (fs : Fs) (hw : ∀ e ∈ fs.ents, e.2 ≠ .broken) (limit : Nat) (db : Db) (n : Nat) (k : Key) (path : Path) :
    getLinked db n k path (fs.asDisk limit) = ((getFsItem db n k path fs).1, (getFsItem db n k path fs).2.asDisk limit) := (plainly_get db n k path fs hw).2

/-- **C96**: where there are no links, checking out is what the model without links says. -/
theorem C96_plain_checkout (fs : Fs) (hw : ∀ e ∈ fs.ents, e.2 ≠ .broken) (limit : Nat) (db : Db) (glob : Path → Bool) (dbPath : Path) (iter : List Bytes → List Bytes) (n : Nat) (k : Key) (path : Path) :
    checkoutLinked db glob dbPath iter n k path (fs.asDisk limit) =
      ((checkoutFsItem db (makeFilter glob dbPath) iter n k path fs).1, (checkoutFsItem db (makeFilter glob dbPath) iter n k path fs).2.asDisk limit) := (plainly_checkout db glob dbPath iter n k path fs hw).2

end Snap.Props
