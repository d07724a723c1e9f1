import Verif.Props.Text
import Verif.Props.Progress
import Verif.Props.PanicWork
/-! What can be read off the text printed by `compare`, `status` and `checkout-head` (C81). -/
namespace Snap.Props
open Snap
set_option linter.unusedSectionVars false
variable [Serde] [LawfulSerde]

namespace Spec

/-- The lines of a section, without the two spaces before them, and the lines after it. -/
def indented : List Bytes → List Bytes × List Bytes
  | [] => ([], [])
  | l :: ls =>
    match after [32, 32] l with
    | some p => let r := indented ls; (p :: r.1, r.2)
    | none => ([], l :: ls)

/-- The section with the given title, if there is one here. -/
def sectionIn (title : Bytes) : List Bytes → List Bytes × List Bytes
  | [] => ([], [])
  | l :: ls => if l = title then indented ls else ([], l :: ls)

/-- A path, and whether a slash after it marks it as a directory. -/
def marked (l : Bytes) : Bytes × Bool := if l.getLast? = some 47 then (l.dropLast, true) else (l, false)

/-- Reading a printed comparison from its lines: added and deleted paths (with: is it a directory), modified paths. -/
def readReport (ls : List Bytes) : Option (List (Bytes × Bool) × List (Bytes × Bool) × List Bytes) :=
  let a := sectionIn (Text.lit "added:") ls
  let d := sectionIn (Text.lit "deleted:") a.2
  let m := sectionIn (Text.lit "modified:") d.2
  if m.2 = [] then some (a.1.map marked, d.1.map marked, m.1) else none

end Spec

theorem indented_lines (ps : List Bytes) (rest : List Bytes) (h : ∀ l ∈ rest.head?, Spec.after [32, 32] l = none) :
    Spec.indented (ps.map ([32, 32] ++ ·) ++ rest) = (ps, rest) := by
  induction ps with
  | nil =>
    cases rest with
    | nil => rfl
    | cons l ls => simp only [List.map_nil, List.nil_append, Spec.indented, h l (by simp)]
  | cons p ps ih => simp only [List.map_cons, List.cons_append (as := List.map _ _), Spec.indented, after_append, ih]

/-- The lines of a section that lists these paths. -/
def sectionLines (title : Bytes) (ps : List Bytes) : List Bytes := if ps = [] then [] else title :: ps.map ([32, 32] ++ ·)

theorem sectionIn_lines (title : Bytes) (ps rest : List Bytes) (h : ∀ l ∈ rest.head?, l ≠ title ∧ Spec.after [32, 32] l = none) :
    Spec.sectionIn title (sectionLines title ps ++ rest) = (ps, rest) := by
  unfold sectionLines
  split
  · rename_i he
    subst he
    cases rest with
    | nil => rfl
    | cons l ls => simp only [List.nil_append, Spec.sectionIn, if_neg (h l (by simp)).1]
  · rw [List.cons_append]
    simp only [Spec.sectionIn, if_true]
    exact indented_lines ps rest fun l hl => (h l hl).2

theorem section_lines (title : Bytes) (ht : (10 : UInt8) ∉ title) (ps : List Bytes) (hp : ∀ p ∈ ps, (10 : UInt8) ∉ p) (rest : Bytes) :
    Spec.lines (Text.section' title (ps.map fun p => Text.line ([32, 32] ++ p)) ++ rest) = sectionLines title ps ++ Spec.lines rest := by
  unfold Text.section' sectionLines
  cases ps with
  | nil => rfl
  | cons p ps =>
    have h := lines_flatMap (fun p => [32, 32] ++ p) (p :: ps) (by
      intro a ha hm
      rcases List.mem_append.mp hm with hm | hm
      · revert hm; decide
      · exact hp a ha hm) rest
    rw [if_neg (by simp), if_neg (by simp), List.append_assoc, lines_line ht]
    rw [List.flatMap_def] at h
    rw [h]
    rfl

/-- A path as it is shown: a slash marks those without key. -/
def shownAs (F : Fmt) (p : Path) (key : Option Key) : Bytes := match key with | some _ => F.lossy p | none => F.lossy p ++ [47]

theorem pathLine_eq (F : Fmt) (p : Path) (key : Option Key) : Text.pathLine F p key = Text.line ([32, 32] ++ shownAs F p key) := by
  have h1 : Text.lit "  " = [32, 32] := by decide +kernel
  have h2 : Text.lit "/" = [47] := by decide +kernel
  cases key <;> simp only [Text.pathLine, shownAs, h1, h2, List.append_assoc]

theorem shownAs_nl {F : Fmt} {p : Path} {key : Option Key} (h : (10 : UInt8) ∉ F.lossy p) : (10 : UInt8) ∉ shownAs F p key := by
  cases key
  · simp only [shownAs, List.mem_append, not_or]
    exact ⟨h, by decide⟩
  · exact h

theorem marked_shownAs {F : Fmt} {p : Path} {key : Option Key} (h : key ≠ none → (F.lossy p).getLast? ≠ some 47) :
    Spec.marked (shownAs F p key) = (F.lossy p, key.isNone) := by
  cases key with
  | none => simp [Spec.marked, shownAs]
  | some k => exact if_neg (h (by simp))

/-- What `print_diff_result` shows, as lists. -/
def shownReport (F : Fmt) (r : DiffResult) : List (Bytes × Bool) × List (Bytes × Bool) × List Bytes :=
  (r.added.map fun a => (F.lossy a.path, a.newKey.isNone), r.deleted.map fun d => (F.lossy d.path, d.originalKey.isNone), r.modified.map fun m => F.lossy m.path)

theorem report_lines (F : Fmt) (r : DiffResult) (ha : ∀ a ∈ r.added, (10 : UInt8) ∉ F.lossy a.path) (hd : ∀ a ∈ r.deleted, (10 : UInt8) ∉ F.lossy a.path)
    (hm : ∀ a ∈ r.modified, (10 : UInt8) ∉ F.lossy a.path) :
    Spec.lines (Text.report F r) = sectionLines (Text.lit "added:") (r.added.map fun a => shownAs F a.path a.newKey) ++
      (sectionLines (Text.lit "deleted:") (r.deleted.map fun d => shownAs F d.path d.originalKey) ++ (sectionLines (Text.lit "modified:") (r.modified.map fun m => F.lossy m.path) ++ [])) := by
  have h1 : Text.lit "  " = [32, 32] := by decide +kernel
  unfold Text.report
  have e1 : (r.added.map fun a => Text.pathLine F a.path a.newKey) = (r.added.map fun a => shownAs F a.path a.newKey).map fun p => Text.line ([32, 32] ++ p) := by
    rw [List.map_map]; exact List.map_congr_left fun a _ => pathLine_eq _ _ _
  have e2 : (r.deleted.map fun d => Text.pathLine F d.path d.originalKey) = (r.deleted.map fun d => shownAs F d.path d.originalKey).map fun p => Text.line ([32, 32] ++ p) := by
    rw [List.map_map]; exact List.map_congr_left fun a _ => pathLine_eq _ _ _
  have e3 : (r.modified.map fun m => Text.line (Text.lit "  " ++ F.lossy m.path)) = (r.modified.map fun m => F.lossy m.path).map fun p => Text.line ([32, 32] ++ p) := by
    rw [List.map_map, h1]; rfl
  rw [e1, e2, e3, List.append_assoc, section_lines _ (by decide +kernel), section_lines _ (by decide +kernel)]
  · have := section_lines (Text.lit "modified:") (by decide +kernel) (r.modified.map fun m => F.lossy m.path) (by
      intro p hp
      obtain ⟨a, h, rfl⟩ := List.mem_map.mp hp
      exact hm a h) []
    rw [List.append_nil] at this
    rw [this]
    rfl
  · intro p hp
    obtain ⟨a, h, rfl⟩ := List.mem_map.mp hp
    exact shownAs_nl (hd a h)
  · intro p hp
    obtain ⟨a, h, rfl⟩ := List.mem_map.mp hp
    exact shownAs_nl (ha a h)

theorem sectionLines_head {t : Bytes} {ps rest : List Bytes} {l : Bytes} (h : l ∈ (sectionLines t ps ++ rest).head?) : l = t ∨ l ∈ rest.head? := by
  unfold sectionLines at h
  split at h
  · exact .inr h
  · left; simpa using h.symm

/-- **C81**: if no path to be shown contains a line break and no file's path ends in a slash, the printed comparison can be read: it lists exactly the paths of the result, in order,
and tells directories from files among the added ones. -/
theorem C81_reads (F : Fmt) (r : DiffResult) (ha : ∀ a ∈ r.added, (10 : UInt8) ∉ F.lossy a.path ∧ (a.newKey ≠ none → (F.lossy a.path).getLast? ≠ some 47))
    (hd : ∀ a ∈ r.deleted, (10 : UInt8) ∉ F.lossy a.path ∧ (a.originalKey ≠ none → (F.lossy a.path).getLast? ≠ some 47)) (hm : ∀ a ∈ r.modified, (10 : UInt8) ∉ F.lossy a.path) :
    Spec.readReport (Spec.lines (Text.report F r)) = some (shownReport F r) := by
  rw [report_lines F r (fun a h => (ha a h).1) (fun a h => (hd a h).1) hm]
  have k1 : Text.lit "deleted:" ≠ Text.lit "added:" ∧ Spec.after [32, 32] (Text.lit "deleted:") = none := by decide +kernel
  have k2 : Text.lit "modified:" ≠ Text.lit "added:" ∧ Spec.after [32, 32] (Text.lit "modified:") = none := by decide +kernel
  have k3 : Text.lit "modified:" ≠ Text.lit "deleted:" := by decide +kernel
  unfold Spec.readReport
  rw [sectionIn_lines _ _ _ (by
    intro l hl
    rcases sectionLines_head hl with rfl | hl
    · exact k1
    · rcases sectionLines_head hl with rfl | hl
      · exact k2
      · simp at hl)]
  simp only
  rw [sectionIn_lines _ _ _ (by
    intro l hl
    rcases sectionLines_head hl with rfl | hl
    · exact ⟨k3, k2.2⟩
    · simp at hl)]
  simp only
  rw [sectionIn_lines _ _ [] (by simp)]
  simp only [if_true, shownReport, List.map_map]
  congr 2
  · exact List.map_congr_left fun a h => marked_shownAs (ha a h).2
  · congr 1
    exact List.map_congr_left fun a h => marked_shownAs (hd a h).2

/-- **C81**: nothing is printed iff there is nothing to report. -/
theorem C81_nothing (F : Fmt) (r : DiffResult) : Text.report F r = [] ↔ r.isEmpty = true := by
  have sec : ∀ (t : Bytes) (l : List Bytes), Text.section' t l = [] ↔ l = [] := by
    intro t l
    unfold Text.section'
    cases l <;> simp [Text.line]
  unfold Text.report DiffResult.isEmpty
  simp only [List.append_eq_nil_iff, sec, List.map_eq_nil_iff, Bool.and_eq_true, List.isEmpty_iff, and_assoc]

/-- **C81**: a line break in a path makes texts of different results equal. -/
theorem C81_line_break (F : Fmt) (hF : ∀ b, utf8 b = true → F.lossy b = b) (k : Key) :
    ∃ r r' : DiffResult, r.added.length ≠ r'.added.length ∧ Text.report F r = Text.report F r' := by
  refine ⟨⟨[], [⟨[97, 10, 32, 32, 98], false, some k⟩], []⟩, ⟨[], [⟨[97], false, some k⟩, ⟨[98], false, some k⟩], []⟩, by simp, ?_⟩
  have h1 : Text.lit "  " = [32, 32] := by decide +kernel
  simp only [Text.report, Text.section', List.map_cons, List.map_nil, Text.pathLine, hF _ (show utf8 [97, 10, 32, 32, 98] = true by decide), hF _ (show utf8 [97] = true by decide),
    hF _ (show utf8 [98] = true by decide), h1, Text.line]
  rfl

/-! ### Commands -/

theorem mapSM_mem {σ α β : Type} {f : α → SM σ β} {l : List α} {s s' : σ} {r : List β} (h : mapSM f l s = (.ok r, s')) : ∀ b ∈ r, ∃ x ∈ l, ∃ s1 s2, f x s1 = (.ok b, s2) := by
  obtain ⟨_, _, h3⟩ := mapSM_steps (I := fun _ => True) (G := fun _ _ => True) (fun _ => trivial) (fun _ _ _ _ _ => trivial) (fun _ _ _ _ => ⟨trivial, trivial⟩) trivial h
  intro b hb
  obtain ⟨x, hx, s1, s2, _, he, _⟩ := h3 b hb
  exact ⟨x, hx, s1, s2, he⟩

theorem addedOf_files {E : Env} {fs : Fs} {m : PMap Bool} {x : Path} {s s' : Db × Cache} {a : Added} (h : addedOf E fs (.left m) x s = (.ok a, s')) : a.newKey.isNone = a.isDir := by
  unfold addedOf at h
  simp only at h
  obtain ⟨key, s1, h1, h⟩ := bind_ok h
  obtain ⟨d, s2, h2, h⟩ := bind_ok h
  simp only [SM.pure_apply, Prod.mk.injEq, Res.ok.injEq] at h
  obtain ⟨rfl, _⟩ := h
  obtain ⟨d', s3, h3, h1⟩ := bind_ok h1
  have e3 : (FromMap.left m).isDir x = .ok d' := by rw [SM.lift_apply] at h3; exact congrArg Prod.fst h3
  have e2 : (FromMap.left m).isDir x = .ok d := by rw [SM.lift_apply] at h2; exact congrArg Prod.fst h2
  have : d' = d := by rw [e3] at e2; injection e2
  subst this
  cases d' with
  | true =>
    simp only [if_true, SM.pure_apply, Prod.mk.injEq, Res.ok.injEq] at h1
    rw [← h1.1]; rfl
  | false =>
    simp only [Bool.false_eq_true, if_false] at h1
    obtain ⟨k, s4, _, h1⟩ := bind_ok h1
    simp only [SM.pure_apply, Prod.mk.injEq, Res.ok.injEq] at h1
    rw [← h1.1]; rfl

/-- A comparison of files with a stored tree: added directories are those without key. -/
theorem compare_files {E : Env} {fs : Fs} {iter : Nat → List Path → List Path} {n : Nat} {path dbPath : Path} {glob : Path → Bool} {t : Option Key} {s s' : Db × Cache}
    {r : DiffResult} (h : compare E fs iter n (.fileSystem path glob dbPath) t s = (.ok r, s')) : ∀ a ∈ r.added, a.newKey.isNone = a.isDir := by
  unfold compare at h
  simp only at h
  obtain ⟨m, s1, h1, h⟩ := bind_ok h
  obtain ⟨m', s1', h1', h2⟩ := bind_ok h1
  simp only [SM.pure_apply, Prod.mk.injEq, Res.ok.injEq] at h2
  obtain ⟨rfl, rfl⟩ := h2
  obtain ⟨B, s2, _, h⟩ := bind_ok h
  obtain ⟨added, s3, ha, h⟩ := bind_ok h
  obtain ⟨deleted, s4, _, h⟩ := bind_ok h
  obtain ⟨modified, s5, _, h⟩ := bind_ok h
  simp only [SM.pure_apply, Prod.mk.injEq, Res.ok.injEq] at h
  obtain ⟨rfl, _⟩ := h
  intro a hm
  obtain ⟨x, _, t1, t2, he⟩ := mapSM_mem ha a ((sortBy_perm _ _).mem_iff.mp hm)
  exact addedOf_files he

theorem simplify_mem {r : DiffResult} {a : Added} (h : a ∈ (simplify r).added) : a ∈ r.added := by
  have key : ∀ (l kept : List Added), a ∈ l.foldl (fun kept p => if kept.any (fun x => Path.startsWith p.path x.path) then kept else kept ++ [p]) kept → a ∈ kept ∨ a ∈ l := by
    intro l
    induction l with
    | nil => intro kept h; exact .inl h
    | cons p l ih =>
      intro kept h
      rw [List.foldl_cons] at h
      rcases ih _ h with h | h
      · split at h
        · exact .inl h
        · rcases List.mem_append.mp h with h | h
          · exact .inl h
          · simp only [List.mem_cons, List.not_mem_nil, or_false] at h; subst h; exact .inr (by simp)
      · exact .inr (by simp [h])
  rcases key r.added [] h with h | h
  · simp at h
  · exact h

theorem success_ok {X : Ctx} {R : Repo} {q : List Bytes} {cmd : Command} {w : World} (h : (runIn X R q cmd w).1 = .success) : (cmd.inRepo X R (startOf w q)).1 = .ok () := by
  rw [runIn_exit] at h
  cases hr : (cmd.inRepo X R (startOf w q)).1 with
  | ok u => rfl
  | err e => rw [hr] at h; simp [exitOf] at h
  | panic => rw [hr] at h; simp [exitOf] at h
  | fuel => rw [hr] at h; simp [exitOf] at h

theorem compareTail_ok {X : Ctx} {R : Repo} {path : Option Path} {k : Key} {s s' : Sys} (h : compareTail X R path false k s = (.ok (), s')) :
    ∃ r, s'.out = s.out ++ [.result r] ∧ ∀ a ∈ r.added, a.newKey.isNone = a.isDir := by
  rw [compareTail_eq] at h
  split at h
  · rename_i r d hc
    simp only [Prod.mk.injEq, true_and] at h
    subst h
    exact ⟨simplify r, rfl, fun a ha => compare_files hc a (simplify_mem ha)⟩
  all_goals simp at h

/-- **C81**: what a successful `compare` prints is the text of its result, and in the result the added paths without key are the directories. -/
theorem C81_compare (F : Fmt) (X : Ctx) (w : World) (R : Repo) (q : List Bytes) (ho : Opens X w R q) (path : Option Path) (key : Option Keyish)
    (h : (mainRun X (.compare path key false) w).1 = .success) :
    ∃ r, (mainRun X (.compare path key false) w).2.1 = [.result r] ∧ mainText F X (.compare path key false) w = Text.report F r ∧ ∀ a ∈ r.added, a.newKey.isNone = a.isDir := by
  rw [mainRun_open (by simp) ho] at h ⊢
  have h := success_ok h
  have e : (Command.compare path key false).inRepo X R (startOf w q) = (readDb (fun db => compareKey db key) >>= compareTail X R path false) (startOf w q) := by
    cases key <;> rfl
  have hx : (Command.compare path key false).inRepo X R (startOf w q) = (.ok (), ((Command.compare path key false).inRepo X R (startOf w q)).2) := Prod.ext h rfl
  have hx' := e.symm.trans hx
  obtain ⟨k, s1, h1, h2⟩ := bind_ok hx'
  obtain ⟨r, hr, ha⟩ := compareTail_ok h2
  have hs : s1 = startOf w q := by
    rw [readDb_apply] at h1
    exact (congrArg Prod.snd h1).symm
  rw [hs] at hr
  have ho' : (Command.compare path key false |>.inRepo X R (startOf w q)).2.out = [.result r] := hr
  refine ⟨r, by rw [runIn_out]; exact ho', ?_, ha⟩
  rw [mainText_open (by simp) ho, ho', h]
  simp [Text.ofRun, Text.heading, Text.closing, Text.recordOf, Text.record]

/-- The first line of `status`. -/
def headLine (head : Bytes) (ck : Key) : Bytes := Text.lit "HEAD: " ++ head ++ Text.lit " [" ++ ck.asUserKey.take 8 ++ Text.lit "]"

/-- **C81**: what a successful `status` prints is a line about HEAD and the text of the result. -/
theorem C81_status (F : Fmt) (X : Ctx) (w : World) (R : Repo) (q : List Bytes) (ho : Opens X w R q) (head : Bytes) (ck : Key) (c : Commit) (hh : HeadCommit (w.dbs q) head ck c)
    (h : (mainRun X .status w).1 = .success) :
    ∃ r, (mainRun X .status w).2.1 = [.headAt head (some (ck.asUserKey.take 8)), .result r] ∧
      mainText F X .status w = Text.line (headLine head ck) ++ Text.report F r ∧ ∀ a ∈ r.added, a.newKey.isNone = a.isDir := by
  rw [mainRun_open (by simp) ho] at h ⊢
  have h := success_ok h
  have hx : Command.status.inRepo X R (startOf w q) = (.ok (), (Command.status.inRepo X R (startOf w q)).2) := Prod.ext h rfl
  have e := cmdStatus_eq X R (startOf w q) (c := c) hh
  obtain ⟨r, hr, ha⟩ := compareTail_ok (e.symm.trans hx)
  have ho' : (Command.status.inRepo X R (startOf w q)).2.out = [.headAt head (some (ck.asUserKey.take 8)), .result r] := hr
  refine ⟨r, by rw [runIn_out]; exact ho', ?_, ha⟩
  rw [mainText_open (by simp) ho, ho', h]
  simp [Text.ofRun, Text.heading, Text.closing, Text.recordOf, Text.record, headLine]

theorem relPath_last {rel : List Bytes} (h : ∀ m ∈ rel, okName m) : (relPath rel).getLast? ≠ some 47 := by
  rcases List.eq_nil_or_concat rel with rfl | ⟨up, n, rfl⟩
  · simp [relPath]
  · rw [List.concat_eq_append, relPath_snoc]
    have hn := h n (by simp)
    obtain ⟨h0, _, _, h47, _⟩ := hn
    have last : ∀ a : Bytes, (a ++ n).getLast? ≠ some 47 := by
      intro a e
      rw [List.getLast?_append] at e
      cases hg : n.getLast? with
      | none => exact h0 (List.getLast?_eq_none_iff.mp hg)
      | some x =>
        rw [hg] at e
        simp only [Option.some_or, Option.some.injEq] at e
        subst e
        exact h47 (List.mem_of_getLast? hg)
    unfold Path.join
    split
    · exact fun e => h47 (List.mem_of_getLast? e)
    · split
      · exact last _
      · have := last (relPath up ++ [47])
        rwa [List.append_assoc, List.singleton_append] at this

/-- **C81**, with **C67**: in a directory whose names are UTF-8 without line breaks, the text `status` prints lists exactly the new paths not inside new directories, telling
directories from files, and exactly the changed files. -/
theorem C81_working (F : Fmt) (hF : ∀ b, utf8 b = true → F.lossy b = b) (X : Ctx) (hit : IterOk X.iter) (w : World) (hreach : w.Reachable X.E.H) (hw : w.fs.Wf) (R : Repo) (q : List Bytes)
    (ho : Opens X w R q) (l : List Fs) (hu : World.Uses X.E l w) (hfa : FaithfulFs X.E (w.fs :: l)) (hf1 : (w.dbs q).faults = []) (hf2 : w.cache.faults = [])
    (head : Bytes) (ck : Key) (c : Commit) (hh : HeadCommit (w.dbs q) head ck c)
    (fs2 : Fs) (f2 : Filter) (n2 : Nat) (hn2 : n2 ≤ X.depth) (p2 : Path) (h2 : Snapshot X.E (w.dbs q) c.tree fs2 f2 n2 p2)
    (hcwd : loc w.fs.cwd R.root = w.fs.cwd) (hdir : w.fs.metadata R.root = .ok .dir)
    (hb : Bounded X.E w.fs (makeFilter X.glob R.folder) X.depth R.root) (hrd : Readable X.E w.fs (makeFilter X.glob R.folder) R.root)
    (hcoll : NoColl X.E.H (putFsItem X.E w.fs (makeFilter X.glob R.folder) X.depth R.root (w.dbs q)).2)
    (hr1 : ∀ rel c, VisFile w.fs (makeFilter X.glob R.folder) R.root rel c → FullyRead X.E (joins R.root rel) c ∧ FullyRead X.E (relPath rel) c)
    (hr2 : ∀ rel c, VisFile fs2 f2 p2 rel c → FullyRead X.E (joins p2 rel) c)
    (hsame : ∀ rel b, Shown fs2 f2 p2 rel b → ∃ b', Shown w.fs (makeFilter X.glob R.folder) R.root rel b')
    (hnames : ∀ rel b, Shown w.fs (makeFilter X.glob R.folder) R.root rel b → utf8 (relPath rel) = true ∧ (10 : UInt8) ∉ relPath rel) (hhead : (10 : UInt8) ∉ head) :
    ∃ rest adds mods, Spec.lines (mainText F X .status w) = headLine head ck :: rest ∧ Spec.readReport rest = some (adds, [], mods) ∧
      (∀ p b, (p, b) ∈ adds ↔ ∃ rel, p = relPath rel ∧ Shown w.fs (makeFilter X.glob R.folder) R.root rel b ∧ (∀ b', ¬ Shown fs2 f2 p2 rel b') ∧
        ∀ up b', up <+: rel → up ≠ rel → Shown w.fs (makeFilter X.glob R.folder) R.root up b' → ∃ b'', Shown fs2 f2 p2 up b'') ∧
      (∀ p, p ∈ mods ↔ ∃ rel c, p = relPath rel ∧ rel ≠ [] ∧ VisFile w.fs (makeFilter X.glob R.folder) R.root rel c ∧
        (Shown fs2 f2 p2 rel true ∨ ∃ c', VisFile fs2 f2 p2 rel c' ∧ c ≠ c')) := by
  obtain ⟨hp, hok⟩ := C67_working X hit w hreach hw R q ho l hu hfa hf1 hf2 head ck c hh fs2 f2 n2 hn2 p2 h2 hcwd hdir hb hrd hcoll hr1 hr2
  obtain ⟨hs, r, hout, hrep⟩ := hok (by
    rw [Ne, hp]
    rintro ⟨rel, b, h1, h2⟩
    obtain ⟨b', h3⟩ := hsame rel b h1
    exact h2 b' h3)
  obtain ⟨r', hout', htext, hdirs⟩ := C81_status F X w R q ho head ck c hh hs
  have : r' = r := by rw [hout] at hout'; simpa using hout'.symm
  subst this
  obtain ⟨hd, ha, hm⟩ := hrep
  have pa : ∀ a ∈ r'.added, ∃ rel b, a.path = relPath rel ∧ Shown w.fs (makeFilter X.glob R.folder) R.root rel b := by
    intro a hmem
    obtain ⟨rel, h1, h2, _⟩ := (ha a.path a.isDir).mp ⟨a.newKey, hmem⟩
    exact ⟨rel, _, h1, h2⟩
  have pm : ∀ a ∈ r'.modified, ∃ rel b, a.path = relPath rel ∧ Shown w.fs (makeFilter X.glob R.folder) R.root rel b := by
    intro a hmem
    obtain ⟨rel, c, h1, h2, h3, _⟩ := (hm a.path).mp ⟨a, hmem, rfl⟩
    exact ⟨rel, false, h1, h2, h3.1, .inr ⟨rfl, c, h3.2⟩⟩
  have good : ∀ p : Path, (∃ rel b, p = relPath rel ∧ Shown w.fs (makeFilter X.glob R.folder) R.root rel b) → F.lossy p = p ∧ (10 : UInt8) ∉ p ∧ p.getLast? ≠ some 47 := by
    rintro p ⟨rel, b, rfl, h⟩
    obtain ⟨h1, h2⟩ := hnames rel b h
    exact ⟨hF _ h1, h2, relPath_last (h.okNames hw)⟩
  have hread := C81_reads F r' (fun a h => by
      obtain ⟨g1, g2, g3⟩ := good _ (pa a h)
      rw [g1]
      exact ⟨g2, fun _ => g3⟩) (by rw [hd]; simp) (fun a h => by
      obtain ⟨g1, g2, _⟩ := good _ (pm a h)
      rw [g1]
      exact g2)
  have hfirst : (10 : UInt8) ∉ headLine head ck := by
    unfold headLine
    simp only [List.mem_append, not_or]
    exact ⟨⟨⟨⟨by decide +kernel, hhead⟩, by decide +kernel⟩, fun h => userKey_no (by decide) (by decide) ck (List.mem_of_mem_take h)⟩, by decide +kernel⟩
  refine ⟨Spec.lines (Text.report F r'), (shownReport F r').1, (shownReport F r').2.2, by rw [htext, lines_line hfirst], ?_, ?_, ?_⟩
  · rw [hread]
    simp [shownReport, hd]
  · intro p b
    rw [← ha]
    simp only [shownReport, List.mem_map, Prod.mk.injEq]
    constructor
    · rintro ⟨a, h1, h2, h3⟩
      rw [(good _ (pa a h1)).1] at h2
      rw [hdirs a h1] at h3
      subst h2; subst h3
      exact ⟨a.newKey, h1⟩
    · rintro ⟨o, h1⟩
      exact ⟨_, h1, (good _ (pa _ h1)).1, hdirs _ h1⟩
  · intro p
    rw [← hm]
    simp only [shownReport, List.mem_map]
    constructor
    · rintro ⟨a, h1, h2⟩
      rw [(good _ (pm a h1)).1] at h2
      exact ⟨a, h1, h2⟩
    · rintro ⟨a, h1, rfl⟩
      exact ⟨a, h1, (good _ (pm a h1)).1⟩

end Snap.Props
