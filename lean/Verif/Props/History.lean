import Verif.Props.Log
/-! The history of a ref: C39, C58. -/
namespace Snap.Props
open Snap
set_option linter.unusedSectionVars false
variable [Serde] [LawfulSerde]

theorem reflogGet_head {db : Db} {n : Bytes} {r : Option Bytes} {ks : List Key} (h : reflogWalk db n r = .ok ks) :
    (∀ k, reflogGet db n r = .ok k → ∃ t, ks = k :: t) ∧ (reflogGet db n r = .err .notFound → ks = []) := by
  unfold reflogWalk at h
  unfold reflogGet
  rcases List.eq_nil_or_concat (refRows db n r) with e | ⟨l, x, e⟩
  · rw [e] at h ⊢
    simp only [List.reverse_nil, mapRes, Res.ok.injEq] at h
    exact ⟨by simp, fun _ => h.symm⟩
  · rw [List.concat_eq_append] at e
    rw [e] at h ⊢
    simp only [List.reverse_append, List.reverse_cons, List.reverse_nil, List.nil_append, List.cons_append, mapRes] at h
    obtain ⟨k', h1, h2⟩ := Res.bind_eq_ok h
    obtain ⟨t, _, h3⟩ := Res.bind_eq_ok h2
    simp only [pure, Res.ok.injEq] at h3
    simp only [List.getLast?_append, List.getLast?_singleton, Option.some_or, h1]
    refine ⟨fun k hk => ⟨t, ?_⟩, by simp⟩
    simp only [Res.ok.injEq] at hk
    rw [← h3, hk]

/-- Each commit has the next one as its only parent; the last has none. -/
def Spec.Linked (db : Db) : List Key → Prop
  | [] => True
  | [k] => ∃ c, Commit.fromKey db k = .ok c ∧ c.parents = []
  | k :: p :: ks => (∃ c, Commit.fromKey db k = .ok c ∧ c.parents = [p]) ∧ Spec.Linked db (p :: ks)

theorem linked_mono {a b : Db} (h : a.data <+: b.data) {ks : List Key} (hl : Spec.Linked a ks) : Spec.Linked b ks := by
  match ks with
  | [] => trivial
  | [k] => obtain ⟨c, h1, h2⟩ := hl; exact ⟨c, fromKey_mono h h1, h2⟩
  | k :: p :: ks => obtain ⟨⟨c, h1, h2⟩, h3⟩ := hl; exact ⟨⟨c, fromKey_mono h h1, h2⟩, linked_mono h h3⟩

/-- Does not put arbitrary keys into a ref. -/
def _root_.Snap.Command.plain : Command → Bool
  | .refUpdate _ _ => false
  | .reflogPush _ _ _ => false
  | _ => true

/-- As `World.Step`, with commands that do not put arbitrary keys into a ref. -/
inductive _root_.Snap.World.PlainStep (H : Bytes → Key) : World → World → Prop where
  | run (X : Ctx) (hX : X.E.H = H) (cmd : Command) (hc : cmd.plain = true) (w : World) : PlainStep H w (mainRun X cmd w).2.2
  | killed (X : Ctx) (hX : X.E.H = H) (cmd : Command) (hc : cmd.plain = true) (w w' : World)
      (h : ∀ q, SameDb (w'.dbs q) (w.dbs q) ∨ SameDb (w'.dbs q) ((mainRun X cmd w).2.2.dbs q)) : PlainStep H w w'
  | edit (w w' : World) (h : ∀ q, SameDb (w'.dbs q) (w.dbs q)) : PlainStep H w w'

inductive _root_.Snap.World.PlainSteps (H : Bytes → Key) : World → World → Prop where
  | refl (w : World) : PlainSteps H w w
  | tail {a b c : World} (h : PlainSteps H a b) (s : World.PlainStep H b c) : PlainSteps H a c

theorem _root_.Snap.World.PlainStep.step {H : Bytes → Key} {a b : World} (h : World.PlainStep H a b) : World.Step H a b := by
  cases h with
  | run X hX cmd hc w => exact .run X hX cmd _
  | killed X hX cmd hc w w' h => exact .killed X hX cmd _ _ h
  | edit w w' h => exact .edit _ _ h

/-- The history of every ref is a chain of commits. -/
def Histories (db : Db) : Prop := ∀ n, ∃ ks, reflogWalk db n none = .ok ks ∧ Spec.Linked db ks

theorem histories_same {a b : Db} (h : SameDb a b) (hb : Histories b) : Histories a := by
  intro n
  obtain ⟨ks, h1, h2⟩ := hb n
  refine ⟨ks, ?_, linked_mono (by rw [h.1.1]; exact List.prefix_refl _) h2⟩
  unfold reflogWalk refRows at h1 ⊢
  rw [h.1.2.2]
  exact h1

theorem plain_calls {cmd : Command} (hp : cmd.plain = true) (hc : ∀ a b c, cmd ≠ .commit a b c) {c : Call} (h : cmd.calls c) : ¬ c.onReflog := by
  rcases h with h | ⟨_, rfl⟩
  · cases cmd with
    | commit a b c => exact (hc a b c rfl).elim
    | refUpdate => simp [Command.plain] at hp
    | reflogPush => simp [Command.plain] at hp
    | insert => exact (isPut_keeps h).2
    | compare => exact (isPut_keeps h).2
    | status => exact (isPut_keeps h).2
    | commitTree => exact (isPut_keeps h).2
    | checkoutHead => rcases h with h | rfl
                      · exact (isPut_keeps h).2
                      · exact nofun
    | setHead => subst h; exact nofun
    | _ => exact h.elim
  · exact nofun

theorem main_hashed (X : Ctx) (cmd : Command) (w : World) (q : List Bytes) : ∀ x ∈ (w.dbs q).hashed, x ∈ ((mainRun X cmd w).2.2.dbs q).hashed := by
  obtain ⟨cs, _, h⟩ := any_calls X cmd w q
  exact fun x hx => h.2 x (calls_hashed _ _ _ x hx)

theorem main_histories (X : Ctx) (cmd : Command) (hp : cmd.plain = true) (w : World) (q : List Bytes) (hi : Inv X.E.H (w.dbs q)) (hcoll : NoColl X.E.H ((mainRun X cmd w).2.2.dbs q))
    (h : Histories (w.dbs q)) : Histories ((mainRun X cmd w).2.2.dbs q) := by
  by_cases hc : ∃ a b c, cmd = .commit a b c
  · obtain ⟨path, message, refname, rfl⟩ := hc
    rcases mainRun_cases X (.commit path message refname) (by simp) w with ⟨R, q', ho, e⟩ | e
    · by_cases hq : q = q'
      · subst hq
        by_cases hr : ((Command.commit path message refname).inRepo X R (startOf w q)).1 = .ok () ∧ commitOk ((Command.commit path message refname).inRepo X R (startOf w q)).2.db
        · obtain ⟨n, ck, tree, ps, g1, g2, g3, g4, ⟨d, g5, _, g6⟩, g7, g8, _⟩ := C38_commit X path message refname w R q hi ⟨ho, hr.1, hr.2⟩ hcoll
          have hpre : (w.dbs q).data <+: ((mainRun X (.commit path message refname) w).2.2.dbs q).data := by
            obtain ⟨cs, _, h⟩ := any_calls X (.commit path message refname) w q
            rw [h.1.1]
            exact runCalls_data_prefix _ _ _
          intro m
          by_cases hm : m = n
          · subst hm
            obtain ⟨ks, k1, k2⟩ := h m
            refine ⟨ck :: ks, g7 ks k1, ?_⟩
            have hh := reflogGet_head k1
            rcases g4 with ⟨k, a1, rfl⟩ | ⟨a1, rfl⟩
            · obtain ⟨t, rfl⟩ := hh.1 k a1
              exact ⟨⟨_, g3, rfl⟩, linked_mono hpre k2⟩
            · have := hh.2 a1
              subst this
              exact ⟨_, g3, rfl⟩
          · obtain ⟨ks, k1, k2⟩ := h m
            exact ⟨ks, by rw [g8 m none (Or.inl hm)]; exact k1, linked_mono hpre k2⟩
        · rw [e]
          refine histories_same (runIn_lost X R q _ w ?_) h
          by_cases h1 : ((Command.commit path message refname).inRepo X R (startOf w q)).1 = .ok ()
          · exact Or.inr fun h2 => hr ⟨h1, h2⟩
          · exact Or.inl fun u hu => h1 hu
      · rw [e, runIn_dbs X R q' _ w q hq]
        exact h
    · rw [e]; exact h
  · obtain ⟨cs, h1, h2⟩ := any_calls X cmd w q
    refine histories_same h2 fun n => ?_
    obtain ⟨ks, k1, k2⟩ := h n
    refine ⟨ks, ?_, linked_mono (runCalls_data_prefix _ _ _) k2⟩
    unfold reflogWalk refRows at k1 ⊢
    rw [calls_reflog _ _ _ fun c hcm => plain_calls hp (fun a b d e => hc ⟨a, b, d, e⟩) (h1 c hcm)]
    exact k1

/-- **C39**: starting from nothing, and using any commands but the two that put arbitrary keys into refs (`ref update`, `debug reflog-push`), the entries of every local ref,
newest first, are a chain of commits: each has the next entry as its only parent, and the oldest has none. -/
theorem C39_history {H : Bytes → Key} {w₀ w : World} (h0 : ∀ q, (w₀.dbs q).data = [] ∧ (w₀.dbs q).state = [] ∧ (w₀.dbs q).reflog = []) (hs : World.PlainSteps H w₀ w) (q : List Bytes)
    (hcoll : NoColl H (w.dbs q)) (n : Bytes) : ∃ ks, reflogWalk (w.dbs q) n none = .ok ks ∧ Spec.Linked (w.dbs q) ks := by
  have : Inv H (w.dbs q) ∧ (NoColl H (w.dbs q) → Histories (w.dbs q)) := by
    clear hcoll
    induction hs with
    | refl =>
      refine ⟨⟨by simp [(h0 q).1], by simp [(h0 q).1]⟩, fun _ n => ⟨[], ?_, trivial⟩⟩
      simp [reflogWalk, refRows, (h0 q).2.2, mapRes]
    | tail _ s ih =>
      obtain ⟨hi, hh⟩ := ih
      refine ⟨?_, fun hc => ?_⟩
      · obtain ⟨cs, h1, h2⟩ := step_calls s.step q
        exact h2.inv (calls_inv h1 hi)
      · cases s with
        | run X hX cmd hp w =>
          subst hX
          exact main_histories X cmd hp _ q hi hc (hh fun x hx y hy => hc x (main_hashed X cmd _ q x hx) y (main_hashed X cmd _ q y hy))
        | killed X hX cmd hp w w' h =>
          subst hX
          rcases h q with h | h
          · exact histories_same h (hh (h.noColl hc))
          · have hc' := h.noColl hc
            exact histories_same h (main_histories X cmd hp _ q hi hc' (hh fun x hx y hy => hc' x (main_hashed X cmd _ q x hx) y (main_hashed X cmd _ q y hy)))
        | edit w w' h => exact histories_same (h q) (hh ((h q).noColl hc))
  exact this.2 hcoll n

/-- The keys that `log` visits in such a chain are the chain. -/
theorem linked_log {E : Env} {lib : DiffLib} {fs : Fs} {iter : Nat → List Path → List Path} {n : Nat} {kind : Kind} {db : Db} {k : Key} {ks ks' : List Key} {l : List Out}
    (h : Spec.Linked db (k :: ks)) (hl : Spec.Log E lib fs iter n kind db (k :: ks') l) : ks' = ks := by
  induction ks generalizing k ks' l with
  | nil =>
    obtain ⟨c, h1, h2⟩ := h
    cases hl with
    | root => rfl
    | step hc hp => rw [h1] at hc; have := Res.ok.inj hc; subst this; rw [h2] at hp; simp at hp
  | cons p ks ih =>
    obtain ⟨⟨c, h1, h2⟩, h3⟩ := h
    cases hl with
    | root hc hp => rw [h1] at hc; have := Res.ok.inj hc; subst this; rw [h2] at hp; simp at hp
    | step hc hp _ _ t =>
      rw [h1] at hc
      have := Res.ok.inj hc
      subst this
      rw [h2] at hp
      simp only [List.cons.injEq] at hp
      obtain ⟨rfl, _⟩ := hp
      rw [ih h3 t]

/-- The commits in what was printed. -/
def Spec.printedCommits (l : List Out) : List Key := l.filterMap fun o => match o with | .commit k _ => some k | _ => none

theorem log_printed {E : Env} {lib : DiffLib} {fs : Fs} {iter : Nat → List Path → List Path} {n : Nat} {kind : Kind} {db : Db} {ks : List Key} {l : List Out}
    (hl : Spec.Log E lib fs iter n kind db ks l) : Spec.printedCommits l = ks := by
  induction hl with
  | root _ _ ho => cases ho <;> rfl
  | step _ _ _ ho _ ih => cases ho <;> · simp only [Spec.printedCommits, List.filterMap_cons] at ih ⊢; rw [ih]

/-- **C39**: so a `log` of a local ref that succeeds prints exactly the entries of the ref, newest first. -/
theorem C39_log {H : Bytes → Key} {w₀ w : World} (h0 : ∀ q, (w₀.dbs q).data = [] ∧ (w₀.dbs q).state = [] ∧ (w₀.dbs q).reflog = []) (hs : World.PlainSteps H w₀ w) (q : List Bytes)
    (hcoll : NoColl H (w.dbs q)) (n : Bytes) (k : Key) (hk : reflogGet (w.dbs q) n none = .ok k) (E : Env) (lib : DiffLib) (fs : Fs) (iter : Nat → List Path → List Path) (d : Nat) (kind : Kind)
    (s : Db × List Out) (h : logObj E lib fs iter d kind k (w.dbs q, []) = (.ok (), s)) : reflogWalk (w.dbs q) n none = .ok (Spec.printedCommits s.2) := by
  have hr : w.Reachable H := by
    refine ⟨w₀, h0, ?_⟩
    clear hk h hcoll
    induction hs with
    | refl => exact .refl _
    | tail _ s ih => exact ih.tail s.step
  obtain ⟨ks, h1, h2⟩ := C39_history h0 hs q hcoll n
  obtain ⟨t, rfl⟩ := (reflogGet_head h1).1 k hk
  obtain ⟨ks', l, hl, e⟩ := (C58_log hr q E lib fs iter d kind k []).1 s h
  rw [linked_log h2 hl] at hl
  rw [h1, e]
  show _ = Res.ok (Spec.printedCommits ([] ++ l))
  rw [List.nil_append, log_printed hl]

/-! ### C58: the first parent -/

/-- **C58**: the commit that `log` goes to from a commit made of the given parents (in any order) is the one with the smallest key. -/
theorem C58_smallest (H : Bytes → Key) (tree : Key) (parents : List Key) (attrs : CommitAttrs) (db db' : Db) (k : Key) (hi : Inv H db)
    (h : commitTree H tree parents attrs db = (.ok k, db')) (hc : NoColl H db') (hd : attrs.Readable) (later : Db) (hl : db'.data <+: later.data)
    {E : Env} {lib : DiffLib} {fs : Fs} {iter : Nat → List Path → List Path} {n : Nat} {kind : Kind} {ks : List Key} {l : List Out} (hlog : Spec.Log E lib fs iter n kind later (k :: ks) l) :
    (parents = [] → ks = []) ∧ (parents ≠ [] → ∃ p t, ks = p :: t ∧ p ∈ parents ∧ ∀ p' ∈ parents, p.hash ≤ p'.hash) := by
  obtain ⟨ps, x, hp, hsort, _, hk⟩ := C22_roundtrip H tree parents attrs db db' k hi h hc hd
  have hk := hk later hl
  constructor
  · rintro rfl
    have := hp.eq_nil
    subst this
    cases hlog with
    | root => rfl
    | step hc hp => rw [hk] at hc; have := Res.ok.inj hc; subst this; simp at hp
  · intro hne
    cases ps with
    | nil => exact (hne hp.symm.eq_nil).elim
    | cons p ps =>
      cases hlog with
      | root hc hp => rw [hk] at hc; have := Res.ok.inj hc; subst this; simp at hp
      | step hc hp' =>
        rw [hk] at hc
        have := Res.ok.inj hc
        subst this
        simp only [List.cons.injEq] at hp'
        obtain ⟨rfl, _⟩ := hp'
        refine ⟨p, _, rfl, hp.mem_iff.mp (by simp), fun p' hm => ?_⟩
        rcases List.mem_cons.mp (hp.mem_iff.mpr hm) with rfl | hm
        · exact List.le_refl _
        · exact (List.pairwise_cons.mp hsort).1 p' hm

end Snap.Props
