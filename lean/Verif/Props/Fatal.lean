import Verif.Props.TextLog
import Verif.Props.Ends
/-! Property C87: how one can tell that a command failed. -/
namespace Snap.Props
open Snap
set_option linter.unusedSectionVars false
variable [Serde] [LawfulSerde]

/-- The text `main` prints for an error starts like this. -/
def Spec.fatal : Bytes := [102, 97, 116, 97, 108, 58, 32]

/-- The commands that print nothing before they have succeeded, and then nothing that starts with a path or with contents: all but `show`, `log`, `status`, `compare --stat` and
`debug walk-fs-tree`. -/
def Spec.Tells : Command → Prop
  | .show _ => False
  | .log _ => False
  | .status => False
  | .compare _ _ stat => stat = false
  | .walkFsTree _ => False
  | _ => True

/-- What a run prints: nothing if no command is started, else the text of the result and the records. -/
theorem mainText_shape (F : Fmt) (X : Ctx) (cmd : Command) (w : World) :
    (mainText F X cmd w = [] ∧ (∀ e, (mainRun X cmd w).1 ≠ .fatal e) ∧ (mainRun X cmd w).1 ≠ .success) ∨
    (cmd = .init ∧ mainText F X cmd w = Text.ofRun F cmd (runInit X w).1 [] ∧ ∃ b, (mainRun X cmd w).1 = exitOf (runInit X w).1 b) ∨
    ∃ R s, s.out = [] ∧ mainText F X cmd w = Text.ofRun F cmd (cmd.body X R s).1 (cmd.body X R s).2.out ∧ ∃ b, (mainRun X cmd w).1 = exitOf (cmd.body X R s).1 b := by
  unfold mainText mainRun
  cases hf : findDbFolder w.fs X.dbPath with
  | err e => left; exact ⟨rfl, by simp, by simp⟩
  | panic => left; exact ⟨rfl, by simp, by simp⟩
  | fuel => left; exact ⟨rfl, by simp, by simp⟩
  | ok found =>
    cases found with
    | none =>
      right
      by_cases hc : cmd = .init
      · subst hc
        left
        exact ⟨rfl, by simp [Text.ofRun, Text.heading], _, rfl⟩
      · right
        refine ⟨none, { db := {}, cache := w.cache, fs := w.fs }, rfl, ?_⟩
        refine ⟨by cases cmd <;> first | exact (hc rfl).elim | rfl, (Cache.finish (cmd.body X none { db := {}, cache := w.cache, fs := w.fs }).1 w.cache
          (cmd.body X none { db := {}, cache := w.cache, fs := w.fs }).2.cache).1, ?_⟩
        cases cmd <;> first | exact (hc rfl).elim | rfl
    | some x =>
      cases hp : Path.parent x with
      | none => left; simp only [hp]; exact ⟨trivial, by simp, by simp⟩
      | some root =>
        cases hq : openDb w.fs x with
        | err e => left; simp only [hp, hq]; exact ⟨trivial, by simp [bind, Res.bind], by simp [bind, Res.bind]⟩
        | panic => left; simp only [hp, hq]; exact ⟨trivial, by simp [bind, Res.bind], by simp [bind, Res.bind]⟩
        | fuel => left; simp only [hp, hq]; exact ⟨trivial, by simp [bind, Res.bind], by simp [bind, Res.bind]⟩
        | ok q =>
          right
          by_cases hc : cmd = .init
          · subst hc
            left
            simp only [hp, hq]
            exact ⟨trivial, by simp [Text.ofRun, Text.heading], _, rfl⟩
          · right
            simp only [hp, hq]
            refine ⟨some ⟨x, root⟩, { db := (Conn.mk (w.dbs q) none).begin.2.view, cache := w.cache, fs := w.fs }, rfl, ?_⟩
            cases cmd <;> first | exact (hc rfl).elim | exact ⟨rfl, _, rfl⟩

theorem exitOf_fatal {r : Res Unit} {b : Bool} {e : Err} : exitOf r b = .fatal e ↔ r = .err e := by
  cases r <;> simp [exitOf]
  split <;> simp

theorem fatal_lit : Text.lit "fatal: " = Spec.fatal := by decide +kernel

theorem ofRun_err (F : Fmt) (cmd : Command) (e : Err) (outs : List Out) : Text.ofRun F cmd (.err e) outs = outs.flatMap (Text.recordOf F cmd) ++ (Spec.fatal ++ F.error e ++ [10]) := by
  have : Text.heading cmd (.err e) = [] := by cases cmd <;> rfl
  unfold Text.ofRun
  rw [this, List.nil_append, Text.closing, fatal_lit]
  rfl

/-- **C87**: if the program ends with an error (which its exit status does not tell from success), the last thing it prints is the word `fatal` and the text of the error. -/
theorem C87_line (F : Fmt) (X : Ctx) (cmd : Command) (w : World) (e : Err) (h : (mainRun X cmd w).1 = .fatal e) :
    ∃ before, mainText F X cmd w = before ++ (Spec.fatal ++ F.error e ++ [10]) := by
  rcases mainText_shape F X cmd w with ⟨_, h1, _⟩ | ⟨_, h1, b, h2⟩ | ⟨R, s, _, h1, b, h2⟩
  · exact (h1 e h).elim
  · rw [h2, exitOf_fatal] at h
    rw [h1, h, ofRun_err]
    exact ⟨_, rfl⟩
  · rw [h2, exitOf_fatal] at h
    rw [h1, h, ofRun_err]
    exact ⟨_, rfl⟩

/-! ## Commands that print nothing before they succeed -/

/-- Nothing is printed. -/
def Mute {α} (x : Snap.C α) : Prop := ∀ s, (x s).2.out = s.out
/-- Nothing is printed unless it succeeds; what is printed satisfies `P`. -/
def Late {α} (P : Out → Prop) (x : Snap.C α) : Prop := ∀ s, ((∃ a, (x s).1 = .ok a) ∨ (x s).2.out = s.out) ∧ ∀ o ∈ (x s).2.out, o ∈ s.out ∨ P o

theorem mute_readDb {α} (f : Db → Res α) : Mute (readDb f) := fun _ => rfl
theorem mute_onDb {α} (x : M α) : Mute (onDb x) := fun _ => rfl
theorem mute_onFs {α} (x : SM Fs α) : Mute (onFs x) := fun _ => rfl
theorem mute_read {α} (f : Sys → Res α) : Mute (SM.read f : Snap.C α) := fun _ => rfl
theorem mute_state {α} (f : Sys → Snap.C α) (h : ∀ s, Mute (f s)) : Mute (fun s => f s s : Snap.C α) := fun s => h s s

theorem Mute.late {α} {P : Out → Prop} {x : Snap.C α} (h : Mute x) : Late P x := fun s => ⟨.inr (h s), fun o ho => .inl (by rwa [h s] at ho)⟩

theorem late_bind {α β} {P : Out → Prop} {x : Snap.C α} {f : α → Snap.C β} (hx : Mute x) (hf : ∀ a, Late P (f a)) : Late P (x >>= f) := by
  intro s
  have e := SM.bind_apply (σ := Sys) x f s
  have hs := hx s
  rw [e]
  cases hr : x s with
  | mk r s' =>
    rw [hr] at hs
    have hs : s'.out = s.out := hs
    cases r with
    | ok a => simp only; rw [← hs]; exact hf a s'
    | err e => exact ⟨.inr hs, fun o ho => .inl (by rw [← hs]; exact ho)⟩
    | panic => exact ⟨.inr hs, fun o ho => .inl (by rw [← hs]; exact ho)⟩
    | fuel => exact ⟨.inr hs, fun o ho => .inl (by rw [← hs]; exact ho)⟩

theorem mute_bind {α β} {x : Snap.C α} {f : α → Snap.C β} (hx : Mute x) (hf : ∀ a, Mute (f a)) : Mute (x >>= f) := by
  intro s
  have e := SM.bind_apply (σ := Sys) x f s
  have hs := hx s
  rw [e]
  cases hr : x s with
  | mk r s' =>
    rw [hr] at hs
    cases r with
    | ok a => exact (hf a s').trans hs
    | _ => exact hs

theorem late_emit {P : Out → Prop} {o : Out} (h : P o) : Late P (emit o) := by
  intro s
  refine ⟨.inl ⟨(), rfl⟩, fun o' ho => ?_⟩
  have ho : o' ∈ s.out ++ [o] := ho
  rcases List.mem_append.mp ho with h1 | h1
  · exact .inl h1
  · simp only [List.mem_singleton] at h1; exact .inr (h1 ▸ h)

/-- A loop of steps that cannot fail. -/
theorem late_each {α} {P : Out → Prop} {f : α → Snap.C Unit} {l : List α} (h : ∀ a ∈ l, ∀ s, (f a s).1 = .ok () ∧ ∀ o ∈ (f a s).2.out, o ∈ s.out ∨ P o) : Late P (SM.each f l) := by
  suffices hh : ∀ s, (SM.each f l s).1 = .ok () ∧ ∀ o ∈ (SM.each f l s).2.out, o ∈ s.out ∨ P o from fun s => ⟨.inl ⟨(), (hh s).1⟩, (hh s).2⟩
  induction l with
  | nil => exact fun s => ⟨rfl, fun o ho => .inl ho⟩
  | cons a l ih =>
    intro s
    obtain ⟨h1, h2⟩ := h a (by simp) s
    have e : SM.each f (a :: l) s = SM.each f l (f a s).2 := by
      refine (SM.bind_apply (σ := Sys) (f a) (fun _ => SM.each f l) s).trans ?_
      cases hr : f a s with
      | mk r s' =>
        rw [hr] at h1
        have h1 : r = .ok () := h1
        subst h1
        rfl
    rw [e]
    obtain ⟨h3, h4⟩ := ih (fun b hb => h b (by simp [hb])) (f a s).2
    exact ⟨h3, fun o ho => (h4 o ho).elim (fun h5 => h2 o h5) .inr⟩

theorem mute_compareWork (X : Ctx) (R : Repo) (path : Path) (to : Option Key) : Mute (compareWork X R path to) := fun _ => rfl

/-- Not the letter `f`. -/
def Other (F : Fmt) (cmd : Command) (o : Out) : Prop := (Text.recordOf F cmd o).head? ≠ some 102

theorem other_key (F : Fmt) (cmd : Command) (k : Key) : Other F cmd (.key k) := by
  unfold Other
  obtain ⟨t, ht, _⟩ := C05_shape k
  have h1 : (Text.record F (.key k)).head? ≠ some 102 := by
    show (k.asUserKey ++ [10]).head? ≠ _
    rw [ht]; simp
  cases cmd with
  | insert p =>
    show (Text.lit "inserted hash " ++ k.asUserKey ++ [10]).head? ≠ _
    have : Text.lit "inserted hash " = [105, 110, 115, 101, 114, 116, 101, 100, 32, 104, 97, 115, 104, 32] := by decide +kernel
    rw [this]; simp
  | _ => exact h1

theorem head_append {a b : Bytes} (ha : a.head? ≠ some 102) (hb : b.head? ≠ some 102) : (a ++ b).head? ≠ some 102 := by
  cases a with
  | nil => exact hb
  | cons x a => simpa using ha

theorem head_flatMap {f : Out → Bytes} {l : List Out} (h : ∀ o ∈ l, (f o).head? ≠ some 102) : (l.flatMap f).head? ≠ some 102 := by
  induction l with
  | nil => simp
  | cons o l ih =>
    rw [List.flatMap_cons]
    exact head_append (h o (by simp)) (ih fun o ho => h o (by simp [ho]))

theorem head_section {t : Bytes} {l : List Bytes} (h : (Text.line t).head? ≠ some 102) (h0 : Text.line t ≠ []) : (Text.section' t l).head? ≠ some 102 := by
  unfold Text.section'
  split
  · simp
  · cases ht : Text.line t with
    | nil => exact absurd ht h0
    | cons x r => rw [ht] at h; simpa using h

theorem head_report (F : Fmt) (r : DiffResult) : (Text.report F r).head? ≠ some 102 := by
  unfold Text.report
  refine head_append (head_append ?_ ?_) ?_ <;> exact head_section (by decide +kernel) (by decide +kernel)

theorem late_command (F : Fmt) (X : Ctx) (R : Option Repo) {cmd : Command} (h : Spec.Tells cmd) : Late (Other F cmd) (cmd.body X R) := by
  cases R with
  | none =>
    have hm : Mute (SM.throw .noDatabase : Snap.C Unit) := fun _ => rfl
    cases cmd <;> first | exact h.elim | exact hm.late | exact Mute.late fun _ => rfl
  | some R =>
    show Late _ (cmd.inRepo X R)
    cases cmd with
    | insert p => exact late_bind (fun s => rfl) fun k => late_emit (other_key F _ k)
    | commit p m r =>
      refine Mute.late ?_
      exact mute_bind (mute_readDb _) fun _ => mute_bind (mute_readDb _) fun _ => mute_bind (fun s => rfl) fun _ => mute_bind (mute_onDb _) fun _ => mute_onDb _
    | fetch k d => exact Mute.late (mute_bind (mute_readDb _) fun _ => fun s => rfl)
    | init => exact Mute.late fun _ => rfl
    | «show» _ => exact h.elim
    | log _ => exact h.elim
    | status => exact h.elim
    | walkFsTree _ => exact h.elim
    | compare p k st =>
      have h : st = false := h
      subst h
      refine late_bind (mute_readDb _) fun k => late_bind (mute_compareWork X R _ _) fun r => ?_
      exact late_emit (head_report F _)
    | checkout => exact Mute.late (mute_bind (mute_readDb _) fun _ => mute_bind (mute_readDb _) fun _ => fun s => rfl)
    | checkoutHead n =>
      refine late_bind (mute_readDb _) fun _ => late_bind (mute_read _) fun _ => late_bind (mute_readDb _) fun _ => late_bind (mute_compareWork X R _ _) fun r => ?_
      split
      · refine late_bind (mute_onDb _) fun _ => late_emit ?_
        show (Text.line sNewHead).head? ≠ _
        decide +kernel
      · intro s
        refine ⟨.inl ⟨(), rfl⟩, fun o ho => ?_⟩
        have ho : o ∈ s.out ++ [.text sNotClean] ++ [.result (simplify r)] := ho
        rcases List.mem_append.mp ho with ho | ho
        · rcases List.mem_append.mp ho with ho | ho
          · exact .inl ho
          · simp only [List.mem_singleton] at ho
            subst ho
            right
            show (Text.line sNotClean).head? ≠ _
            decide +kernel
        · simp only [List.mem_singleton] at ho
          subst ho
          exact .inr (head_report F _)
    | refLog n r =>
      refine late_bind (mute_readDb _) fun _ => late_bind (mute_readDb _) fun keys => late_each fun e _ s => ⟨rfl, fun o ho => ?_⟩
      have ho : o ∈ s.out ++ [.entry (keys.length - e.2) e.1] := ho
      rcases List.mem_append.mp ho with ho | ho
      · exact .inl ho
      · simp only [List.mem_singleton] at ho
        subst ho
        right
        show (Text.line (Text.dec _ ++ _ ++ _)).head? ≠ _
        cases hd : Text.dec (keys.length - e.2) with
        | nil => exact absurd hd (dec_ne_nil _)
        | cons c t =>
          have := List.all_eq_true.mp (dec_digits (keys.length - e.2)) c (by rw [hd]; simp)
          simp only [Text.line, List.cons_append, List.head?_cons, ne_eq, Option.some.injEq]
          rintro rfl
          revert this
          decide
    | refUpdate k r => exact Mute.late (mute_bind (mute_readDb _) fun _ => mute_bind (mute_readDb _) fun _ => mute_onDb _)
    | prettyPrint k =>
      refine late_bind (mute_readDb _) fun _ => late_bind (mute_readDb _) fun o => late_emit ?_
      show (Text.prettyPrint F o).head? ≠ _
      unfold Text.prettyPrint
      have : Text.lit "--type: " = [45, 45, 116, 121, 112, 101, 58, 32] := by decide +kernel
      rw [this]
      simp [Text.line]
    | commitTree t ps => exact late_bind (mute_readDb _) fun _ => late_bind (mute_readDb _) fun _ => late_bind (mute_onDb _) fun k => late_emit (other_key F _ k)
    | reflogGet n r => exact late_bind (mute_readDb _) fun k => late_emit (other_key F _ k)
    | reflogPush k n r => exact Mute.late (mute_bind (mute_readDb _) fun _ => mute_onDb _)
    | walkTree k =>
      refine late_bind (mute_readDb _) fun _ => late_bind (mute_readDb _) fun items => late_each fun p _ s => ?_
      dsimp only
      cases items.get p with
      | some v =>
        refine ⟨rfl, fun o ho => ?_⟩
        have ho : o ∈ s.out ++ [.item p v.1 v.2] := ho
        rcases List.mem_append.mp ho with ho | ho
        · exact .inl ho
        · simp only [List.mem_singleton] at ho
          subst ho
          right
          show (Text.line (Text.lit "(" ++ _ ++ _ ++ _ ++ _ ++ _ ++ _)).head? ≠ _
          have : Text.lit "(" = [40] := by decide +kernel
          rw [this]
          simp [Text.line]
      | none => exact ⟨rfl, fun o ho => .inl ho⟩
    | setHead n => exact Mute.late (mute_onDb _)
    | getHead =>
      refine late_bind (mute_readDb _) fun h => late_emit ?_
      cases h with
      | none => show (Text.line (Text.lit "head: None")).head? ≠ _; decide +kernel
      | some n =>
        show (Text.line (Text.lit "head: Some(" ++ _ ++ _)).head? ≠ _
        have : Text.lit "head: Some(" = [104, 101, 97, 100, 58, 32, 83, 111, 109, 101, 40] := by decide +kernel
        rw [this]
        simp [Text.line]

theorem head_log : (Text.line (Text.lit "log entries are printed with most recent at top")).head? ≠ some 102 := by decide +kernel

/-- **C87**: for these commands the output starts with the word `fatal` exactly if they end with an error. -/
theorem C87_told (F : Fmt) (X : Ctx) (cmd : Command) (ht : Spec.Tells cmd) (w : World) : Spec.fatal <+: mainText F X cmd w ↔ ∃ e, (mainRun X cmd w).1 = .fatal e := by
  have hgen : ∀ (r : Res Unit) (outs : List Out) (b : Bool), (∀ o ∈ outs, Other F cmd o) → ((∃ a, r = .ok a) ∨ outs = []) →
      (Spec.fatal <+: Text.ofRun F cmd r outs ↔ ∃ e, exitOf r b = .fatal e) := by
    intro r outs b ho hl
    constructor
    · intro hp
      cases r with
      | err e => exact ⟨e, rfl⟩
      | ok a =>
        have hh : (Text.ofRun F cmd (.ok a) outs).head? ≠ some 102 := head_append (head_append (by cases cmd <;> first | (intro h; simp [Text.heading] at h; done) | exact head_log) (head_flatMap ho)) (by simp [Text.closing])
        obtain ⟨t, ht⟩ := hp
        rw [← ht] at hh
        exact (hh rfl).elim
      | panic =>
        have hh : (Text.ofRun F cmd (.panic) outs).head? ≠ some 102 := head_append (head_append (by cases cmd <;> first | (intro h; simp [Text.heading] at h; done) | exact head_log) (head_flatMap ho)) (by simp [Text.closing])
        obtain ⟨t, ht⟩ := hp
        rw [← ht] at hh
        exact (hh rfl).elim
      | fuel =>
        have hh : (Text.ofRun F cmd (.fuel) outs).head? ≠ some 102 := head_append (head_append (by cases cmd <;> first | (intro h; simp [Text.heading] at h; done) | exact head_log) (head_flatMap ho)) (by simp [Text.closing])
        obtain ⟨t, ht⟩ := hp
        rw [← ht] at hh
        exact (hh rfl).elim
    · rintro ⟨e, he⟩
      rw [exitOf_fatal] at he
      subst he
      rw [ofRun_err]
      rcases hl with ⟨a, ha⟩ | rfl
      · simp at ha
      · rw [List.flatMap_nil, List.nil_append, List.append_assoc]
        exact List.prefix_append _ _
  rcases mainText_shape F X cmd w with ⟨h1, h2, _⟩ | ⟨_, h1, b, h2⟩ | ⟨R, s, hs, h1, b, h2⟩
  · rw [h1]
    refine ⟨fun h => ?_, fun ⟨e, he⟩ => (h2 e he).elim⟩
    have := h.length_le
    simp [Spec.fatal] at this
  · rw [h1, h2]
    exact hgen _ _ b (by simp) (.inr rfl)
  · rw [h1, h2]
    obtain ⟨g1, g2⟩ := late_command F X R ht s
    rw [hs] at g1 g2
    exact hgen _ _ b (fun o ho => (g2 o ho).elim (by simp) id) g1

/-- **C87**: if the output of such a command, other than `init`, starts with the word `fatal`, every database is as before. -/
theorem C87_unchanged (F : Fmt) (X : Ctx) (cmd : Command) (hi : cmd ≠ .init) (ht : Spec.Tells cmd) (w : World) (h : Spec.fatal <+: mainText F X cmd w) (q : List Bytes) :
    SameTables ((mainRun X cmd w).2.2.dbs q) (w.dbs q) :=
  C41_failed X cmd hi w (.inl ((C87_told F X cmd ht w).mp h)) q

end Snap.Props
