import Verif.Props.TextDiff
import Verif.Props.History
/-! What can be read off the text printed by `log` and `compare --stat` (C82). -/
namespace Snap.Props
open Snap
set_option linter.unusedSectionVars false
variable [Serde] [LawfulSerde]

namespace Spec

/-- Reading one line of statistics, from its end: the path, lines added, lines removed. -/
def statIn (l : Bytes) : Option (Bytes × Nat × Nat) := do
  let r := l.reverse
  let removed ← number (r.takeWhile isDigit).reverse
  let r ← after [45, 32] (r.dropWhile isDigit)
  let added ← number (r.takeWhile isDigit).reverse
  let r ← after [43, 32, 32] (r.dropWhile isDigit)
  some (r.reverse, added, removed)

/-- One entry of a printed log: key, message, statistics. -/
abbrev Entry := Bytes × Bytes × List (Bytes × Nat × Nat)

/-- Reading one entry of a printed log: the line `commit: …`, an empty line, the message, an empty line, lines of statistics and two empty lines. -/
def entryIn : List Bytes → Option (Entry × List Bytes)
  | c :: e1 :: m :: e2 :: rest => do
    let k ← after (Text.lit "commit: ") c
    if e1 = [] ∧ e2 = [] then
      match rest.dropWhile (· ≠ []) with
      | _ :: [] :: rest' => do
        let l ← (rest.takeWhile (· ≠ [])).mapM statIn
        some ((k, m, l), rest')
      | _ => none
    else none
  | _ => none

/-- At most `f` entries. -/
def entriesIn : Nat → List Bytes → Option (List Entry)
  | _, [] => some []
  | 0, _ => none
  | f + 1, ls => do
    let (e, rest) ← entryIn ls
    let r ← entriesIn f rest
    some (e :: r)

/-- Reading the text printed by `log`. -/
def readLog (t : Bytes) : Option (List Entry) := entriesIn (lines t).length (lines t)

end Spec

/-! ### Statistics -/

theorem takeWhile_stop {α} (p : α → Bool) (l rest : List α) (h : ∀ a ∈ l, p a = true) (hr : ∀ a ∈ rest.head?, p a = false) :
    (l ++ rest).takeWhile p = l ∧ (l ++ rest).dropWhile p = rest := by
  induction l with
  | nil =>
    cases rest with
    | nil => exact ⟨rfl, rfl⟩
    | cons a r => simp [hr a (by simp)]
  | cons a l ih =>
    obtain ⟨h1, h2⟩ := ih fun x hx => h x (by simp [hx])
    simp [h a (by simp), h1, h2]

/-- The line without its line break. -/
def statText (F : Fmt) (x : FileStat) : Bytes := F.lossy x.fname ++ [32, 32, 43] ++ Text.dec x.added ++ [32, 45] ++ Text.dec x.removed

theorem statLine_eq (F : Fmt) (x : FileStat) : Text.statLine F x = Text.line (statText F x) := by
  have h1 : Text.lit "  +" = [32, 32, 43] := by decide +kernel
  have h2 : Text.lit " -" = [32, 45] := by decide +kernel
  simp only [Text.statLine, statText, h1, h2]

theorem digits_reverse (n : Nat) : ∀ a ∈ (Text.dec n).reverse, Spec.isDigit a = true := fun a ha => List.all_eq_true.mp (dec_digits n) a (List.mem_reverse.mp ha)

/-- A line of statistics is read back. -/
theorem statIn_statText (F : Fmt) (x : FileStat) : Spec.statIn (statText F x) = some (F.lossy x.fname, x.added, x.removed) := by
  unfold Spec.statIn
  have e : (statText F x).reverse = (Text.dec x.removed).reverse ++ ([45, 32] ++ ((Text.dec x.added).reverse ++ ([43, 32, 32] ++ (F.lossy x.fname).reverse))) := by
    simp [statText]
  obtain ⟨h1, h2⟩ := takeWhile_stop Spec.isDigit (Text.dec x.removed).reverse ([45, 32] ++ ((Text.dec x.added).reverse ++ ([43, 32, 32] ++ (F.lossy x.fname).reverse)))
    (digits_reverse _) (by simp; decide)
  obtain ⟨h3, h4⟩ := takeWhile_stop Spec.isDigit (Text.dec x.added).reverse ([43, 32, 32] ++ (F.lossy x.fname).reverse) (digits_reverse _) (by simp; decide)
  simp only [e, h1, h2, List.reverse_reverse, number_dec, after_append, Option.bind_eq_bind, Option.bind_some, h3, h4]

theorem statText_nl {F : Fmt} {x : FileStat} (h : (10 : UInt8) ∉ F.lossy x.fname) : (10 : UInt8) ∉ statText F x := by
  unfold statText
  simp only [List.mem_append, not_or]
  exact ⟨⟨⟨⟨h, by decide⟩, dec_no (by decide) _⟩, by decide⟩, dec_no (by decide) _⟩

theorem statText_ne (F : Fmt) (x : FileStat) : statText F x ≠ [] := by simp [statText]

/-- What a list of statistics says. -/
def statsShown (F : Fmt) (l : List FileStat) : List (Bytes × Nat × Nat) := l.map fun x => (F.lossy x.fname, x.added, x.removed)

theorem mapM_statIn (F : Fmt) (l : List FileStat) : (l.map (statText F)).mapM Spec.statIn = some (statsShown F l) := by
  induction l with
  | nil => rfl
  | cons x l ih => rw [List.map_cons, List.mapM_cons, statIn_statText, ih]; rfl

theorem stats_lines (F : Fmt) (l : List FileStat) (h : ∀ x ∈ l, (10 : UInt8) ∉ F.lossy x.fname) (rest : Bytes) :
    Spec.lines (l.flatMap (Text.statLine F) ++ rest) = l.map (statText F) ++ Spec.lines rest := by
  have : l.flatMap (Text.statLine F) = l.flatMap fun x => Text.line (statText F x) := by
    congr 1
    exact funext fun x => statLine_eq F x
  rw [this]
  exact lines_flatMap (statText F) l (fun a ha => statText_nl (h a ha)) rest

/-- **C82**: printed statistics, of paths without line breaks, can be read: path, lines added and lines removed of every entry, in order. -/
theorem C82_stats (F : Fmt) (l : List FileStat) (h : ∀ x ∈ l, (10 : UInt8) ∉ F.lossy x.fname) :
    (Spec.lines (Text.record F (.stats l))).mapM Spec.statIn = some (statsShown F l) := by
  have := stats_lines F l h []
  rw [List.append_nil] at this
  show (Spec.lines (l.flatMap (Text.statLine F))).mapM _ = _
  rw [this, Spec.lines, List.append_nil, mapM_statIn]

/-! ### The log -/

/-- One entry as `log` prints it. -/
def entryText (F : Fmt) (e : Key × Bytes × List FileStat) : Bytes :=
  Text.line (Text.lit "commit: " ++ e.1.asUserKey) ++ Text.line [] ++ Text.line e.2.1 ++ Text.line [] ++ e.2.2.flatMap (Text.statLine F) ++ Text.line [] ++ Text.line []

/-- What the entry says. -/
def entryShown (F : Fmt) (e : Key × Bytes × List FileStat) : Spec.Entry := (e.1.asUserKey, e.2.1, statsShown F e.2.2)

/-- Message and paths without line breaks. -/
def Plain (F : Fmt) (e : Key × Bytes × List FileStat) : Prop := (10 : UInt8) ∉ e.2.1 ∧ ∀ x ∈ e.2.2, (10 : UInt8) ∉ F.lossy x.fname

theorem entry_lines (F : Fmt) {e : Key × Bytes × List FileStat} (h : Plain F e) (rest : Bytes) :
    Spec.lines (entryText F e ++ rest) = (Text.lit "commit: " ++ e.1.asUserKey) :: [] :: e.2.1 :: [] :: (e.2.2.map (statText F) ++ [] :: [] :: Spec.lines rest) := by
  unfold entryText
  simp only [List.append_assoc]
  have hk : (10 : UInt8) ∉ Text.lit "commit: " ++ e.1.asUserKey := by
    simp only [List.mem_append, not_or]
    exact ⟨by decide +kernel, userKey_no (by decide) (by decide) _⟩
  rw [lines_line hk, lines_line (by simp), lines_line h.1, lines_line (by simp), stats_lines F _ h.2, lines_line (by simp), lines_line (by simp)]

theorem entryIn_lines (F : Fmt) (e : Key × Bytes × List FileStat) (rest : List Bytes) :
    Spec.entryIn ((Text.lit "commit: " ++ e.1.asUserKey) :: [] :: e.2.1 :: [] :: (e.2.2.map (statText F) ++ [] :: [] :: rest)) = some (entryShown F e, rest) := by
  obtain ⟨h1, h2⟩ := takeWhile_stop (fun l : Bytes => decide (l ≠ [])) (e.2.2.map (statText F)) ([] :: [] :: rest) (by
    intro a ha
    obtain ⟨x, _, rfl⟩ := List.mem_map.mp ha
    simpa using statText_ne F x) (by simp)
  simp only [Spec.entryIn, after_append, Option.bind_eq_bind, Option.bind_some, and_self, if_true, h1, h2, mapM_statIn]
  rfl

theorem entriesIn_text (F : Fmt) : ∀ (es : List (Key × Bytes × List FileStat)) (f : Nat), (∀ e ∈ es, Plain F e) → es.length ≤ f →
    Spec.entriesIn f (Spec.lines (es.flatMap (entryText F))) = some (es.map (entryShown F))
  | [], f, _, _ => by cases f <;> rfl
  | e :: es, 0, _, hf => by simp at hf
  | e :: es, f + 1, h, hf => by
    rw [List.flatMap_cons, entry_lines F (h e (by simp))]
    unfold Spec.entriesIn
    rw [entryIn_lines, Option.bind_eq_bind, Option.bind_some]
    simp only
    rw [entriesIn_text F es f (fun x hx => h x (by simp [hx])) (by simpa using hf)]
    rfl

/-- **C82**: a printed log, of messages and paths without line breaks, can be read: the keys, the messages and the statistics of all its entries, in order. -/
theorem C82_reads (F : Fmt) (es : List (Key × Bytes × List FileStat)) (h : ∀ e ∈ es, Plain F e) : Spec.readLog (es.flatMap (entryText F)) = some (es.map (entryShown F)) := by
  refine entriesIn_text F es _ h ?_
  clear h
  suffices ∀ t : Bytes, ∀ n, t.count 10 ≥ n → n ≤ (Spec.lines t).length by
    refine this _ _ ?_
    induction es with
    | nil => simp
    | cons e es ih =>
      rw [List.flatMap_cons, List.count_append, List.length_cons]
      have : 1 ≤ (entryText F e).count 10 := by
        rw [Nat.one_le_iff_ne_zero]
        intro h0
        rw [List.count_eq_zero] at h0
        exact h0 (by simp [entryText, Text.line])
      omega
  intro t
  induction t with
  | nil => intro n hn; simp only [List.count_nil] at hn; omega
  | cons b t ih =>
    intro n hn
    unfold Spec.lines
    by_cases hb : b = 10
    · rw [if_pos hb, List.length_cons]
      subst hb
      rw [List.count_cons_self] at hn
      have := ih (n - 1) (by omega)
      omega
    · rw [if_neg hb]
      have hc : (b :: t).count 10 = t.count 10 := List.count_cons_of_ne hb
      have := ih n (by omega)
      split
      · rename_i e; rw [e] at this; simp only [List.length_nil] at this; omega
      · rename_i l ls e; rw [e] at this; simpa using this

/-- **C82**: with line breaks in messages it cannot: the log of one commit can look like the log of two. -/
theorem C82_line_break (F : Fmt) (k k' : Key) (m m' : Bytes) (l : List FileStat) :
    ∃ message, entryText F (k, message, l) = [(k, m, []), (k', m', l)].flatMap (entryText F) := by
  refine ⟨m ++ [10, 10, 10, 10] ++ (Text.lit "commit: " ++ k'.asUserKey) ++ [10, 10] ++ m', ?_⟩
  simp [entryText, Text.line]

/-- The output of a `log` that succeeds, as entries. -/
theorem log_entries {E : Env} {lib : DiffLib} {fs : Fs} {iter : Nat → List Path → List Path} {n : Nat} {db : Db} {ks : List Key} {l : List Out}
    (h : Spec.Log E lib fs iter n .stat db ks l) :
    ∃ es : List (Key × Bytes × List FileStat), l = es.flatMap (fun e => [.commit e.1 e.2.1, .stats e.2.2]) ∧ es.map (·.1) = ks ∧
      (∀ e ∈ es, ∃ c, Commit.fromKey db e.1 = .ok c ∧ c.attrs.message = e.2.1) := by
  induction h with
  | root hc _ ho =>
    cases ho with
    | stat _ _ => exact ⟨[(_, _, _)], rfl, rfl, by simpa using ⟨_, hc, rfl⟩⟩
  | step hc _ _ ho _ ih =>
    obtain ⟨es, e1, e2, e3⟩ := ih
    cases ho with
    | stat _ _ =>
      refine ⟨(_, _, _) :: es, by rw [e1]; rfl, by rw [← e2]; rfl, ?_⟩
      intro e he
      rcases List.mem_cons.mp he with rfl | he
      · exact ⟨_, hc, rfl⟩
      · exact e3 e he

/-- **C82**: what a successful `log` prints: the entries of the commits from the given one back along first parents. If messages and paths have no line breaks, all of it can be
read off the text. -/
theorem C82_log (F : Fmt) (X : Ctx) (w : World) (hreach : w.Reachable X.E.H) (R : Repo) (q : List Bytes) (ho : Opens X w R q) (arg : Option Keyish) (h : (mainRun X (.log arg) w).1 = .success) :
    ∃ (k : Key) (ks : List Key) (es : List (Key × Bytes × List FileStat)), keyOrHead (w.dbs q) arg = .ok k ∧
      Spec.Log X.E X.lib w.fs X.iter X.depth .stat (w.dbs q) (k :: ks) (mainRun X (.log arg) w).2.1 ∧ es.map (·.1) = k :: ks ∧
      (∀ e ∈ es, ∃ c, Commit.fromKey (w.dbs q) e.1 = .ok c ∧ c.attrs.message = e.2.1) ∧ mainText F X (.log arg) w = es.flatMap (entryText F) ∧
      ((∀ e ∈ es, Plain F e) → Spec.readLog (mainText F X (.log arg) w) = some (es.map (entryShown F))) := by
  rw [mainRun_open (by simp) ho] at h ⊢
  have h := success_ok h
  have hx : (Command.log arg).inRepo X R (startOf w q) = (.ok (), ((Command.log arg).inRepo X R (startOf w q)).2) := Prod.ext h rfl
  have hx' : (readDb (fun db => keyOrHead db arg) >>= fun k => (fun s => onP (logObj X.E X.lib s.fs X.iter X.depth .stat k) s : Snap.C Unit)) (startOf w q) = _ := hx
  obtain ⟨k, s1, h1, h2⟩ := bind_ok hx'
  rw [readDb_apply] at h1
  have hs : s1 = startOf w q := (congrArg Prod.snd h1).symm
  have hk : keyOrHead (w.dbs q) arg = .ok k := congrArg Prod.fst h1
  subst hs
  have hl : ∃ s, logObj X.E X.lib w.fs X.iter X.depth .stat k (w.dbs q, []) = (.ok (), s) := by
    refine ⟨(logObj X.E X.lib w.fs X.iter X.depth .stat k (w.dbs q, [])).2, Prod.ext ?_ rfl⟩
    have h3 : (onP (logObj X.E X.lib (startOf w q).fs X.iter X.depth .stat k) (startOf w q)).1 = .ok () := congrArg Prod.fst h2
    exact h3
  obtain ⟨s, hl⟩ := hl
  obtain ⟨ks, l, hlog, rfl⟩ := (C58_log hreach q X.E X.lib w.fs X.iter X.depth .stat k []).1 s hl
  rw [List.nil_append] at hl
  have hrun := log_run (R := R) hk hl
  obtain ⟨es, e1, e2, e3⟩ := log_entries hlog
  have ht : mainText F X (.log arg) w = es.flatMap (entryText F) := by
    rw [mainText_open (by simp) ho, hrun, e1]
    simp only [Text.ofRun, Text.heading, Text.closing, List.nil_append, List.append_nil, List.flatMap_assoc]
    congr 1
    refine funext fun e => ?_
    simp [Text.recordOf, Text.record, entryText]
  refine ⟨k, ks, es, hk, ?_, e2, e3, ht, fun hp => by rw [ht]; exact C82_reads F es hp⟩
  rw [runIn_out, hrun]
  exact hlog

end Snap.Props
