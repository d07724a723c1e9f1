import Verif.Props.TextLog
import Verif.Props.Fatal
import Verif.Props.WalkCmd
import Verif.Props.Retrieve
/-! Property C100: what can be read off the text printed by `ref log`, `debug walk-tree`, `debug walk-fs-tree`, `insert` and the first line of `status`. -/
namespace Snap.Props
open Snap
set_option linter.unusedSectionVars false
variable [Serde] [LawfulSerde]

namespace Spec

/-- Reading a line of a ref log: a number, a colon, a space and the printed key. -/
def entryLine (l : Bytes) : Option (Nat × Bytes) := do
  let n ← number (l.takeWhile isDigit)
  let k ← after [58, 32] (l.dropWhile isDigit)
  some (n, k)

/-- Reading a printed ref log: a heading, then the entries. -/
def readRefLog (t : Bytes) : Option (List (Nat × Bytes)) :=
  match lines t with
  | l :: ls => if l = Text.lit "log entries are printed with most recent at top" then ls.mapM entryLine else none
  | [] => none

/-- A word for a truth value at the end of a line, after a comma and before the given closing. -/
def flagAt (close l : Bytes) : Option (Bytes × Bool) :=
  match before (Text.lit ", true" ++ close) l with
  | some r => some (r, true)
  | none => (before (Text.lit ", false" ++ close) l).map fun r => (r, false)

/-- The parts before and after the last occurrence of a byte. -/
def atLast (b : UInt8) (l : Bytes) : Bytes × Bytes := (((l.reverse.dropWhile (· ≠ b)).drop 1).reverse, (l.reverse.takeWhile (· ≠ b)).reverse)

/-- Reading a line of `debug walk-tree`, from its end: the quoted path, the bytes of the key, whether it is a directory. -/
def itemLine (l : Bytes) : Option (Bytes × Bytes × Bool) := do
  let (r, d) ← flagAt (Text.lit "))") l
  let h ← hashIn (Text.lit "Blake3B(" ++ (atLast 40 r).2)
  let r ← before (Text.lit ", (Blake3B") (atLast 40 r).1
  let p ← after (Text.lit "(") r
  some (p, h, d)

/-- Reading what `debug walk-tree` prints. -/
def readItems (t : Bytes) : Option (List (Bytes × Bytes × Bool)) := (lines t).mapM itemLine

/-- Reading what `debug walk-fs-tree` prints: the quoted paths, and whether they are directories. -/
def readFsItems (t : Bytes) : Option (List (Bytes × Bool)) := (lines t).mapM (flagAt [])

/-- Reading what `insert` prints. -/
def readInserted (t : Bytes) : Option Bytes :=
  match lines t with
  | [l] => after (Text.lit "inserted hash ") l
  | _ => none

/-- Reading the first line of `status`: the name of the ref and the beginning of a key, or none if there are no commits. -/
def headIn (l : Bytes) : Option (Bytes × Bytes) := do
  let r ← after (Text.lit "HEAD: ") l
  let r ← before (Text.lit "]") r
  let n ← before (Text.lit " [") (r.take (r.length - 8))
  some (n, r.drop (r.length - 8))

end Spec

/-! ### Texts of runs that end well -/

theorem text_success {F : Fmt} {X : Ctx} {cmd : Command} (hc : cmd ≠ .init) {w : World} (h : (mainRun X cmd w).1 = .success) :
    mainText F X cmd w = Text.heading cmd (.ok ()) ++ (mainRun X cmd w).2.1.flatMap (Text.recordOf F cmd) := by
  cases hf : findDbFolder w.fs X.dbPath with
  | err e => unfold mainRun at h; rw [hf] at h; simp at h
  | panic => unfold mainRun at h; rw [hf] at h; simp at h
  | fuel => unfold mainRun at h; rw [hf] at h; simp at h
  | ok found =>
    cases found with
    | none =>
      have e1 : mainRun X cmd w = runOut X cmd w := by
        unfold mainRun
        rw [hf]
        cases cmd <;> first | exact (hc rfl).elim | rfl
      have e2 : mainText F X cmd w = Text.ofRun F cmd (cmd.body X none { db := {}, cache := w.cache, fs := w.fs }).1 (cmd.body X none { db := {}, cache := w.cache, fs := w.fs }).2.out := by
        unfold mainText
        rw [hf]
        cases cmd <;> first | exact (hc rfl).elim | rfl
      rw [e1] at h ⊢
      have e3 : (runOut X cmd w).2.1 = (cmd.body X none { db := {}, cache := w.cache, fs := w.fs }).2.out := rfl
      have e4 : (runOut X cmd w).1 = exitOf (cmd.body X none { db := {}, cache := w.cache, fs := w.fs }).1
        (Cache.finish (cmd.body X none { db := {}, cache := w.cache, fs := w.fs }).1 w.cache (cmd.body X none { db := {}, cache := w.cache, fs := w.fs }).2.cache).1 := rfl
      rw [e4] at h
      have e5 : (cmd.body X none { db := {}, cache := w.cache, fs := w.fs }).1 = .ok () := by
        generalize (Cache.finish _ _ _).1 = b at h
        cases hr : (cmd.body X none { db := {}, cache := w.cache, fs := w.fs }).1 <;> rw [hr] at h <;> simp [exitOf] at h ⊢
      rw [e2, e3, e5]
      simp [Text.ofRun, Text.closing]
    | some x =>
      cases hp : Path.parent x with
      | none => unfold mainRun at h; rw [hf] at h; simp only [hp] at h; simp at h
      | some root =>
        cases hq : openDb w.fs x with
        | err e => unfold mainRun at h; rw [hf] at h; simp only [hp, hq] at h; simp [bind, Res.bind] at h
        | panic => unfold mainRun at h; rw [hf] at h; simp only [hp, hq] at h; simp [bind, Res.bind] at h
        | fuel => unfold mainRun at h; rw [hf] at h; simp only [hp, hq] at h; simp [bind, Res.bind] at h
        | ok q =>
          have ho : Opens X w ⟨x, root⟩ q := ⟨hf, hp, hq⟩
          rw [mainRun_open hc ho] at h ⊢
          rw [mainText_open hc ho, runIn_out, exit_success h]
          simp [Text.ofRun, Text.closing]

theorem mapM_map_some {α β γ} {f : β → Option γ} {g : α → β} {h : α → γ} : ∀ {l : List α}, (∀ a ∈ l, f (g a) = some (h a)) → (l.map g).mapM f = some (l.map h)
  | [], _ => rfl
  | a :: l, hl => by
    rw [List.map_cons, List.mapM_cons, hl a (by simp), mapM_map_some fun x hx => hl x (by simp [hx])]
    rfl

/-! ### ref log -/

theorem entryLine_ok (n : Nat) (k : Key) : Spec.entryLine (Text.dec n ++ Text.lit ": " ++ k.asUserKey) = some (n, k.asUserKey) := by
  have h1 : Text.lit ": " = [58, 32] := by decide +kernel
  have h2 := takeWhile_stop Spec.isDigit (Text.dec n) ([58, 32] ++ k.asUserKey) (fun a ha => List.all_eq_true.mp (dec_digits n) a ha) (by simp; decide)
  unfold Spec.entryLine
  rw [List.append_assoc, h1, h2.1, h2.2, number_dec, after_append]
  rfl

/-- **C100**: from the text of a successful `ref log` one can read the number and the key of every entry. -/
theorem C100_ref_log (F : Fmt) {X : Ctx} {w : World} (hr : w.Reachable X.E.H) {R : Repo} {q : List Bytes} (ho : Opens X w R q) (hk : cacheOk w) (n : Bytes) (remote : Option Bytes) :
    ∃ ks, reflogWalk (w.dbs q) n remote = .ok ks ∧
      Spec.readRefLog (mainText F X (.refLog (some n) remote) w) = some (ks.zipIdx.map fun e => (ks.length - e.2, e.1.asUserKey)) := by
  obtain ⟨⟨ks, h1, h2, h3⟩, _⟩ := C64_log hr ho hk n remote
  refine ⟨ks, h1, ?_⟩
  rw [text_success (by simp) h3]
  have h2 : (mainRun X (.refLog (some n) remote) w).2.1 = numbered ks := h2
  rw [h2]
  have e : (numbered ks).flatMap (Text.recordOf F (.refLog (some n) remote)) =
      (ks.zipIdx).flatMap (fun e => Text.line (Text.dec (ks.length - e.2) ++ Text.lit ": " ++ e.1.asUserKey)) := by
    unfold numbered
    rw [List.flatMap_map]
    rfl
  rw [e]
  unfold Spec.readRefLog
  have e2 : Text.heading (.refLog (some n) remote) (.ok ()) = Text.line (Text.lit "log entries are printed with most recent at top") := rfl
  have e3 := lines_flatMap (fun e : Key × Nat => Text.dec (ks.length - e.2) ++ Text.lit ": " ++ e.1.asUserKey) ks.zipIdx (by
    intro a _
    simp only [List.mem_append, not_or]
    exact ⟨⟨dec_no (by decide) _, by decide +kernel⟩, userKey_no (by decide) (by decide) _⟩) []
  rw [List.append_nil] at e3
  rw [e2, lines_line (by decide +kernel), e3]
  simp only [Spec.lines, List.append_nil, if_true]
  exact mapM_map_some fun a _ => entryLine_ok _ _

/-! ### The walking commands -/

theorem before_none {suf t : Bytes} (h : ¬ suf <:+ t) : Spec.before suf t = none := by
  unfold Spec.before
  rw [if_neg]
  simpa using h

theorem flagAt_ok (close p : Bytes) (d : Bool) : Spec.flagAt close (p ++ Text.lit ", " ++ Text.bool d ++ close) = some (p, d) := by
  have h1 : Text.lit ", true" = Text.lit ", " ++ Text.lit "true" := by decide +kernel
  have h2 : Text.lit ", false" = Text.lit ", " ++ Text.lit "false" := by decide +kernel
  have e : ∀ b : Bytes, p ++ Text.lit ", " ++ b ++ close = p ++ (Text.lit ", " ++ b ++ close) := by intro b; simp only [List.append_assoc]
  unfold Spec.flagAt
  cases d with
  | true =>
    simp only [Text.bool, if_true]
    rw [h1, e, before_append]
  | false =>
    simp only [Text.bool, if_neg Bool.false_ne_true]
    rw [before_none, h2, e, before_append]
    · rfl
    · rintro ⟨t, ht⟩
      rw [h1, e] at ht
      have ht := congrArg List.reverse ht
      simp only [List.reverse_append] at ht
      have k1 : (Text.lit "true").reverse = [101, 117, 114, 116] := by decide +kernel
      have k2 : (Text.lit "false").reverse = [101, 115, 108, 97, 102] := by decide +kernel
      rw [k1, k2] at ht
      simp only [List.append_assoc] at ht
      have := List.append_cancel_left ht
      simp at this

theorem atLast_ok {b : UInt8} {x y : Bytes} (h : b ∉ y) : Spec.atLast b (x ++ b :: y) = (x, y) := by
  unfold Spec.atLast
  have e : (x ++ b :: y).reverse = y.reverse ++ (b :: x.reverse) := by simp
  obtain ⟨h1, h2⟩ := takeWhile_stop (· ≠ b) y.reverse (b :: x.reverse) (by
    intro a ha
    simp only [decide_eq_true_eq, ne_eq]
    rintro rfl
    exact h (List.mem_reverse.mp ha)) (by simp)
  rw [e, h1, h2]
  simp

theorem itemLine_ok (p : Bytes) (k : Key) (d : Bool) :
    Spec.itemLine (Text.lit "(" ++ p ++ Text.lit ", (" ++ Text.debugKey k ++ Text.lit ", " ++ Text.bool d ++ Text.lit "))") = some (p, k.hash, d) := by
  unfold Spec.itemLine
  rw [flagAt_ok]
  have e1 : Text.debugKey k = Text.lit "Blake3B" ++ 40 :: ([91] ++ Text.sepBy (Text.lit ", ") (k.hash.map fun b => Text.dec b.toNat) ++ Text.lit "])") := by
    have : Text.lit "Blake3B([" = Text.lit "Blake3B" ++ [40, 91] := by decide +kernel
    unfold Text.debugKey
    rw [this]
    simp
  have e2 : Text.lit "Blake3B(" ++ ([91] ++ Text.sepBy (Text.lit ", ") (k.hash.map fun b => Text.dec b.toNat) ++ Text.lit "])") = Text.debugKey k := by
    have : Text.lit "Blake3B(" = Text.lit "Blake3B" ++ [40] := by decide +kernel
    rw [e1, this]
    simp
  have e3 := atLast_ok (b := 40) (x := Text.lit "(" ++ p ++ Text.lit ", (" ++ Text.lit "Blake3B") (y := [91] ++ Text.sepBy (Text.lit ", ") (k.hash.map fun b => Text.dec b.toNat) ++ Text.lit "])") (by
    simp only [List.mem_append, not_or]
    refine ⟨⟨by decide, sepBy_no (by decide +kernel) _ ?_⟩, by decide +kernel⟩
    intro a ha
    obtain ⟨b, _, rfl⟩ := List.mem_map.mp ha
    exact dec_no (by decide) _)
  rw [show Text.lit "(" ++ p ++ Text.lit ", (" ++ Text.debugKey k = Text.lit "(" ++ p ++ Text.lit ", (" ++ Text.lit "Blake3B" ++
    40 :: ([91] ++ Text.sepBy (Text.lit ", ") (k.hash.map fun b => Text.dec b.toNat) ++ Text.lit "])") by rw [e1]; simp only [List.append_assoc], ]
  have e4 : Text.lit ", (Blake3B" = Text.lit ", (" ++ Text.lit "Blake3B" := by decide +kernel
  simp only [Option.bind_eq_bind, Option.bind_some, e3, e2, hashIn_debugKey]
  rw [e4, show Text.lit "(" ++ p ++ Text.lit ", (" ++ Text.lit "Blake3B" = (Text.lit "(" ++ p) ++ (Text.lit ", (" ++ Text.lit "Blake3B") by simp only [List.append_assoc], before_append]
  simp only [Option.bind_some, after_append]

theorem bool_no_nl (d : Bool) : (10 : UInt8) ∉ Text.bool d := by cases d <;> decide +kernel

/-- **C100**: from the text of `debug walk-tree` one can read the path (as it is quoted), the key and the kind of every file and directory below the key, and there is no other line. -/
theorem C100_walk_tree (F : Fmt) (hq : ∀ p, (10 : UInt8) ∉ F.debugStr p) (X : Ctx) (hiter : ∀ i l, (X.iter i l).Perm l) (w : World) (hs : w.Sound X.E.H) (R : Repo) (q : List Bytes)
    (hc : NoColl X.E.H (w.dbs q)) (ho : Opens X w R q) (hcf : w.cache.faults = []) (hdepth : (w.dbs q).data.length ≤ X.depth) (key : Keyish) (k : Key) (hk : canonicalize (w.dbs q) key = .ok k)
    (hitem : LeadsTo (w.dbs q) k IsItem) :
    ∃ l : List (List Bytes × Key × Bool), (l.map (·.1)).Nodup ∧
      (∀ rel k' d, (rel, k', d) ∈ l ↔ Spec.Under (w.dbs q) k rel k' ∧ Comes (w.dbs q) k' [] d ∧ ¬ (rel = [] ∧ d = true)) ∧
      Spec.readItems (mainText F X (.walkTree key) w) = some (l.map fun x => (F.debugStr (relPath x.1), x.2.1.hash, x.2.2)) := by
  obtain ⟨h1, ⟨l, h2, h3, h4⟩, _⟩ := C89_tree X hiter w hs R q hc ho hcf hdepth key k hk hitem
  refine ⟨l, h3, fun rel k' d => h4 rel (k', d), ?_⟩
  rw [text_success (by simp) h1, h2]
  have e : (l.map fun x => Out.item (relPath x.1) x.2.1 x.2.2).flatMap (Text.recordOf F (.walkTree key)) =
      l.flatMap (fun x => Text.line (Text.lit "(" ++ F.debugStr (relPath x.1) ++ Text.lit ", (" ++ Text.debugKey x.2.1 ++ Text.lit ", " ++ Text.bool x.2.2 ++ Text.lit "))")) := by
    rw [List.flatMap_map]
    rfl
  rw [e]
  have e3 := lines_flatMap (fun x : List Bytes × Key × Bool => Text.lit "(" ++ F.debugStr (relPath x.1) ++ Text.lit ", (" ++ Text.debugKey x.2.1 ++ Text.lit ", " ++ Text.bool x.2.2 ++ Text.lit "))") l (by
    intro a _
    simp only [List.mem_append, not_or]
    exact ⟨⟨⟨⟨⟨⟨by decide +kernel, hq _⟩, by decide +kernel⟩, debugKey_no_nl _⟩, by decide +kernel⟩, bool_no_nl _⟩, by decide +kernel⟩) []
  rw [List.append_nil] at e3
  unfold Spec.readItems
  rw [show Text.heading (.walkTree key) (.ok ()) = [] from rfl, List.nil_append, e3]
  simp only [Spec.lines, List.append_nil]
  exact mapM_map_some fun a _ => itemLine_ok _ _ _

/-- **C100**: likewise `debug walk-fs-tree`, inside and outside of repositories: path and kind of everything below the directory. -/
theorem C100_walk_fs (F : Fmt) (hq : ∀ p, (10 : UInt8) ∉ F.debugStr p) (X : Ctx) (hiter : ∀ i l, (X.iter i l).Perm l) (w : World) (hw : w.fs.Wf)
    (hrun : (∃ R q, Opens X w R q) ∨ findDbFolder w.fs X.dbPath = .ok none) (hcf : w.cache.faults = []) (path : Path)
    (hdepth : ∀ rel, w.fs.at (loc w.fs.cwd path ++ rel) ≠ none → rel.length < X.depth) (h : (mainRun X (.walkFsTree path) w).1 = .success) :
    ∃ l : List (List Bytes × Bool), (l.map (·.1)).Nodup ∧ (∀ rel d, (rel, d) ∈ l ↔ rel ≠ [] ∧ KindAt w.fs (loc w.fs.cwd path ++ rel) d) ∧
      Spec.readFsItems (mainText F X (.walkFsTree path) w) = some (l.map fun x => (F.debugStr (relPath x.1), x.2)) := by
  obtain ⟨_, h1, _⟩ := C89_fs X hiter w hw hrun hcf path hdepth
  obtain ⟨l, h2, h3, h4⟩ := h1 h
  refine ⟨l, h3, h4, ?_⟩
  rw [text_success (by simp) h, h2]
  have e : (l.map fun x => Out.fsItem (relPath x.1) x.2).flatMap (Text.recordOf F (.walkFsTree path)) =
      l.flatMap (fun x => Text.line (F.debugStr (relPath x.1) ++ Text.lit ", " ++ Text.bool x.2)) := by
    rw [List.flatMap_map]
    rfl
  rw [e]
  have e3 := lines_flatMap (fun x : List Bytes × Bool => F.debugStr (relPath x.1) ++ Text.lit ", " ++ Text.bool x.2) l (by
    intro a _
    simp only [List.mem_append, not_or]
    exact ⟨⟨hq _, by decide +kernel⟩, bool_no_nl _⟩) []
  rw [List.append_nil] at e3
  unfold Spec.readFsItems
  rw [show Text.heading (.walkFsTree path) (.ok ()) = [] from rfl, List.nil_append, e3]
  simp only [Spec.lines, List.append_nil]
  exact mapM_map_some fun a _ => by
    have := flagAt_ok [] (F.debugStr (relPath a.1)) a.2
    rwa [List.append_nil] at this

/-! ### Single results -/

/-- **C100**: from the text of a successful `insert` one can read the key. -/
theorem C100_insert (F : Fmt) (X : Ctx) (path : Path) (w : World) (h : (mainRun X (.insert path) w).1 = .success) (k : Key) (hk : w.printed X (.insert path) = [.key k]) :
    Spec.readInserted (mainText F X (.insert path) w) = some k.asUserKey := by
  rw [text_success (by simp) h, show (mainRun X (.insert path) w).2.1 = [.key k] from hk]
  have e : Text.heading (.insert path) (.ok ()) ++ [Out.key k].flatMap (Text.recordOf F (.insert path)) = Text.line (Text.lit "inserted hash " ++ k.asUserKey) ++ [] := by
    simp [Text.heading, Text.recordOf]
  rw [e]
  unfold Spec.readInserted
  rw [lines_line (by
    simp only [List.mem_append, not_or]
    exact ⟨by decide +kernel, userKey_no (by decide) (by decide) k⟩)]
  exact after_append _ _

theorem headIn_ok (head : Bytes) (ck : Key) : Spec.headIn (headLine head ck) = some (head, ck.asUserKey.take 8) := by
  have hl : (ck.asUserKey.take 8).length = 8 := by rw [List.length_take, asUserKey_length]; rfl
  unfold Spec.headIn headLine
  rw [List.append_assoc, List.append_assoc, List.append_assoc, after_append]
  rw [← List.append_assoc, ← List.append_assoc]
  simp only [Option.bind_eq_bind, Option.bind_some, before_append]
  have e : (head ++ Text.lit " [" ++ ck.asUserKey.take 8).length - 8 = (head ++ Text.lit " [").length := by rw [List.length_append, hl]; omega
  rw [e, List.take_left, List.drop_left, before_append]
  rfl

/-- **C100**: the first line of a successful `status` names HEAD's ref and the beginning of the key of its newest commit. Given to `show` or `log`, that beginning does just what no argument
does, unless the key of something else that is stored begins in the same way; then it is refused. -/
theorem C100_status (F : Fmt) (X : Ctx) (w : World) (hr : w.Reachable X.E.H) (R : Repo) (q : List Bytes) (ho : Opens X w R q) (head : Bytes) (hn : (10 : UInt8) ∉ head) (ck : Key) (c : Commit)
    (hh : HeadCommit (w.dbs q) head ck c) (h : (mainRun X .status w).1 = .success) :
    ∃ l ls short key, Spec.lines (mainText F X .status w) = l :: ls ∧ Spec.headIn l = some (head, short) ∧ short = ck.asUserKey.take 8 ∧ Keyish.fromStr short = .ok key ∧
      ((∀ k', Stored (w.dbs q) k' → short <+: k'.asUserKey → k' = ck) →
        mainRun X (.show (some key)) w = mainRun X (.show none) w ∧ mainRun X (.log (some key)) w = mainRun X (.log none) w) ∧
      (¬ (∀ k', Stored (w.dbs q) k' → short <+: k'.asUserKey → k' = ck) → ∃ e, (mainRun X (.show (some key)) w).1 = .fatal e ∧ (mainRun X (.log (some key)) w).1 = .fatal e) := by
  obtain ⟨r, _, ht, _⟩ := C81_status F X w R q ho head ck c hh h
  have hst : Stored (w.dbs q) ck := by
    have := hh.2.2
    unfold Commit.fromKey at this
    obtain ⟨o, ho, _⟩ := Res.bind_eq_ok this
    unfold getObj at ho
    cases hv : get (w.dbs q) ck with
    | ok v => exact ⟨v, hv⟩
    | err e => rw [hv] at ho; simp [bind, Res.bind, Res.unwrap] at ho
    | panic => rw [hv] at ho; simp [bind, Res.bind, Res.unwrap] at ho
    | fuel => rw [hv] at ho; simp [bind, Res.bind, Res.unwrap] at ho
  have hhead : getHeadKey (w.dbs q) = .ok ck := by
    unfold getHeadKey
    rw [headName_eq hh.1]
    exact hh.2.1
  have hlen : (ck.asUserKey.take 8).length = 8 := by rw [List.length_take, asUserKey_length]; rfl
  obtain ⟨key, h1, h2, h3⟩ := C71_resolve hr hst (arg := ck.asUserKey.take 8) (by intro e; rw [e] at hlen; simp at hlen) (List.take_prefix _ _)
  have hd : Denotes (w.dbs q) (ck.asUserKey.take 8) ck ↔ ∀ k', Stored (w.dbs q) k' → ck.asUserKey.take 8 <+: k'.asUserKey → k' = ck :=
    ⟨fun h => h.2.2, fun h => ⟨List.take_prefix _ _, fun e => by have := congrArg List.length e; rw [hlen, asUserKey_length] at this; omega, h⟩⟩
  have hno : (10 : UInt8) ∉ headLine head ck := by
    unfold headLine
    simp only [List.mem_append, not_or]
    exact ⟨⟨⟨⟨by decide +kernel, hn⟩, by decide +kernel⟩, fun hm => userKey_no (by decide) (by decide) ck (List.mem_of_mem_take hm)⟩, by decide +kernel⟩
  refine ⟨headLine head ck, Spec.lines (Text.report F r), _, key, by rw [ht, lines_line hno], headIn_ok head ck, rfl, h1, fun hu => ?_, fun hu => ?_⟩
  · have hk := h2 (hd.mpr hu)
    have e1 : keyOrHead (startOf w q).db (some key) = .ok ck := hk
    have e2 : keyOrHead (startOf w q).db none = .ok ck := hhead
    have same : ∀ {a b : Command}, a ≠ .init → b ≠ .init → a.inRepo X R (startOf w q) = b.inRepo X R (startOf w q) → mainRun X a w = mainRun X b w := by
      intro a b ha hb e
      rw [mainRun_open ha ho, mainRun_open hb ho]
      unfold runIn
      have : ∀ cmd : Command, cmd.body X (some R) { db := (Conn.mk (w.dbs q) none).begin.2.view, cache := w.cache, fs := w.fs } = cmd.inRepo X R (startOf w q) := fun _ => rfl
      simp only [this, e]
    constructor
    · refine same (by simp) (by simp) ?_
      show cmdShow X (some key) (startOf w q) = cmdShow X none (startOf w q)
      rw [show cmdShow X (some key) (startOf w q) = _ from readDb_bind _ _ _, show cmdShow X none (startOf w q) = _ from readDb_bind _ _ _, e1, e2]
    · refine same (by simp) (by simp) ?_
      show cmdLog X (some key) (startOf w q) = cmdLog X none (startOf w q)
      rw [show cmdLog X (some key) (startOf w q) = _ from readDb_bind _ _ _, show cmdLog X none (startOf w q) = _ from readDb_bind _ _ _, e1, e2]
  · obtain ⟨e, he⟩ := h3 fun h => hu (hd.mp h)
    have e1 : keyOrHead (startOf w q).db (some key) = .err e := he
    refine ⟨e, ?_, ?_⟩
    · refine (run_reads ho (cmd := .show (some key)) (by simp) (r := .err e) (o := []) ?_).2.2.1 e rfl
      show cmdShow X (some key) (startOf w q) = _
      rw [show cmdShow X (some key) (startOf w q) = _ from readDb_bind _ _ _, e1]
      rfl
    · refine (run_reads ho (cmd := .log (some key)) (by simp) (r := .err e) (o := []) ?_).2.2.1 e rfl
      show cmdLog X (some key) (startOf w q) = _
      rw [show cmdLog X (some key) (startOf w q) = _ from readDb_bind _ _ _, e1]
      rfl

end Snap.Props
