import Verif.Model.Links
import Verif.Props.Live
import Verif.Props.Ends
/-! Property C94: storing directories with symbolic links. -/
namespace Snap.Props
open Snap
set_option linter.unusedSectionVars false
variable [Serde] [LawfulSerde]

namespace Spec

/-- Names are proper, and none is twice in a directory. -/
structure _root_.Snap.LinkFs.Sane (fs : LinkFs) : Prop where
  nodup : (fs.ents.map (·.1)).Nodup
  names : ∀ e ∈ fs.ents, ∀ n ∈ e.1, okName n

/-- What storing `path` comes to, at this place below it: each name on the way is an entry of the directory it is looked up in, leads, through whatever links, to a place that exists and is not
in the database folder, and is matched by no pattern; and what is seen is what is at the place where the way ends. -/
structure Reached (fs : LinkFs) (E : Env) (glob : Path → Bool) (dbPath path : Path) (s : Seen) : Prop where
  way : ∀ r n, r ++ [n] <+: s.rel → ∃ q q' d, fs.canonicalize (joins path r) = .ok q ∧ fs.at q = some .dir ∧ n ∈ fs.names q ∧
    fs.canonicalize (joins path (r ++ [n])) = .ok q' ∧ fs.canonicalize dbPath = .ok d ∧ ¬ d <+: q' ∧ glob (stripDot (joins path (r ++ [n]))) = false
  there : ∃ q, fs.canonicalize (joins path s.rel) = .ok q ∧ match s.what with
    | none => fs.at q = some .dir
    | some (len, evs) => ∃ c md, fs.at q = some (.file c md) ∧ len = c.length ∧ evs = E.rd (joins path s.rel) c

end Spec

open Spec (Seen look lookEntries tick)

/-! ### Following a path -/

section
variable (fs : LinkFs)

theorem lsteps_append {k : Nat} {next : List Bytes → List Bytes → Res (Nat × List Bytes)}
    (hn : ∀ cur a b, next cur (a ++ b) = (next cur a >>= fun c => fs.walk c.1 c.2 b)) (hk : ∀ cur b, fs.steps k next cur b = fs.walk k cur b) (cur a b : List Bytes) :
    fs.steps k next cur (a ++ b) = (fs.steps k next cur a >>= fun c => fs.walk c.1 c.2 b) := by
  induction a generalizing cur with
  | nil => exact hk cur b
  | cons s a ih =>
    simp only [List.cons_append, LinkFs.steps]
    cases h : fs.at cur with
    | none => rfl
    | some e =>
      cases e with
      | dir =>
        simp only
        split
        · exact ih _
        · split
          · exact ih _
          · cases h' : fs.at (cur ++ [s]) with
            | none => exact ih _
            | some e' =>
              cases e' with
              | link t =>
                simp only
                split
                · rfl
                · rw [← List.append_assoc]
                  exact hn _ _ _
              | _ => exact ih _
      | _ => rfl

theorem lwalk_append (k : Nat) (cur a b : List Bytes) : fs.walk k cur (a ++ b) = (fs.walk k cur a >>= fun c => fs.walk c.1 c.2 b) := by
  induction k generalizing cur a b with
  | zero => exact lsteps_append fs (fun _ _ _ => rfl) (fun _ _ => rfl) cur a b
  | succ k ih => exact lsteps_append fs (fun cur a b => ih cur a b) (fun _ _ => rfl) cur a b

/-- Links left are at most those there were. -/
theorem lwalk_le {k : Nat} {cur l : List Bytes} {k' : Nat} {c : List Bytes} (h : fs.walk k cur l = .ok (k', c)) : k' ≤ k := by
  induction k generalizing cur l with
  | zero =>
    have : ∀ l cur, fs.steps 0 (fun _ _ => .err .io) cur l = .ok (k', c) → k' ≤ 0 := by
      intro l
      induction l with
      | nil => intro cur h; simp only [LinkFs.steps, Res.ok.injEq, Prod.mk.injEq] at h; omega
      | cons s l ih =>
        intro cur h
        simp only [LinkFs.steps] at h
        split at h
        · split at h
          · exact ih _ h
          · split at h
            · exact ih _ h
            · split at h
              · split at h <;> simp at h
              · exact ih _ h
        · simp at h
        · simp at h
    exact this l cur h
  | succ k ih' =>
    have : ∀ l cur, fs.steps (k + 1) (fs.walk k) cur l = .ok (k', c) → k' ≤ k + 1 := by
      intro l
      induction l with
      | nil => intro cur h; simp only [LinkFs.steps, Res.ok.injEq, Prod.mk.injEq] at h; omega
      | cons s l ih =>
        intro cur h
        simp only [LinkFs.steps] at h
        split at h
        · split at h
          · exact ih _ h
          · split at h
            · exact ih _ h
            · split at h
              · split at h
                · simp at h
                · have := ih' h; omega
              · exact ih _ h
        · simp at h
        · simp at h
    exact this l cur h

/-- Going to a name in a directory: to the entry itself, or along at least one link. -/
theorem lwalk_name {k : Nat} {cur : List Bytes} {n : Bytes} (hn : okName n) {k' : Nat} {c : List Bytes} (h : fs.walk k cur [n] = .ok (k', c)) :
    fs.at cur = some .dir ∧ ((k' = k ∧ c = cur ++ [n] ∧ ∀ t, fs.at c ≠ some (.link t)) ∨ k' < k) := by
  have key : ∀ next : List Bytes → List Bytes → Res (Nat × List Bytes), (∀ cur l k' c, next cur l = .ok (k', c) → k' < k) →
      fs.steps k next cur [n] = .ok (k', c) → fs.at cur = some .dir ∧ ((k' = k ∧ c = cur ++ [n] ∧ ∀ t, fs.at c ≠ some (.link t)) ∨ k' < k) := by
    intro next hx h
    simp only [LinkFs.steps] at h
    cases hc : fs.at cur with
    | none => rw [hc] at h; simp at h
    | some e =>
      rw [hc] at h
      cases e with
      | dir =>
        refine ⟨rfl, ?_⟩
        simp only at h
        rw [if_neg (by simp [hn.1, hn.2.1]), if_neg hn.2.2.1] at h
        split at h
        · split at h
          · simp at h
          · exact Or.inr (hx _ _ _ _ h)
        · rename_i hno
          simp only [Res.ok.injEq, Prod.mk.injEq] at h
          obtain ⟨rfl, rfl⟩ := h
          exact Or.inl ⟨rfl, rfl, fun t ht => hno t ht⟩
      | _ => simp at h
  cases k with
  | zero => exact key _ (fun _ _ _ _ h => by simp at h) h
  | succ k => exact key _ (fun _ _ _ _ h => Nat.lt_succ_of_le (lwalk_le fs h)) h

/-- With more links allowed the way is the same. -/
theorem lwalk_more {k : Nat} {cur l : List Bytes} {k' : Nat} {c : List Bytes} (h : fs.walk k cur l = .ok (k', c)) (j : Nat) : fs.walk (k + j) cur l = .ok (k' + j, c) := by
  induction k generalizing cur l with
  | zero =>
    have : ∀ l cur, fs.steps 0 (fun _ _ => .err .io) cur l = .ok (k', c) → ∀ m next, m = j → fs.steps m next cur l = .ok (k' + j, c) := by
      intro l
      induction l with
      | nil => intro cur h m next hm; simp only [LinkFs.steps, Res.ok.injEq, Prod.mk.injEq] at h ⊢; exact ⟨by omega, h.2⟩
      | cons s l ih =>
        intro cur h m next hm
        simp only [LinkFs.steps] at h ⊢
        split at h
        · split at h
          · rw [if_pos ‹_›]; exact ih _ h _ _ hm
          · rw [if_neg ‹_›]
            split at h
            · rw [if_pos ‹_›]; exact ih _ h _ _ hm
            · rw [if_neg ‹_›]
              split at h
              · split at h <;> simp at h
              · exact ih _ h _ _ hm
        · simp at h
        · simp at h
    rw [Nat.zero_add]
    cases j with
    | zero => exact this l cur h 0 _ rfl
    | succ j => exact this l cur h (j + 1) _ rfl
  | succ k ih' =>
    have : ∀ l cur, fs.steps (k + 1) (fs.walk k) cur l = .ok (k', c) → fs.steps (k + j + 1) (fs.walk (k + j)) cur l = .ok (k' + j, c) := by
      intro l
      induction l with
      | nil => intro cur h; simp only [LinkFs.steps, Res.ok.injEq, Prod.mk.injEq] at h ⊢; exact ⟨by omega, h.2⟩
      | cons s l ih =>
        intro cur h
        simp only [LinkFs.steps] at h ⊢
        split at h
        · split at h
          · rw [if_pos ‹_›]; exact ih _ h
          · rw [if_neg ‹_›]
            split at h
            · rw [if_pos ‹_›]; exact ih _ h
            · rw [if_neg ‹_›]
              split at h
              · split at h
                · simp at h
                · rw [if_neg ‹_›]; exact ih' h
              · exact ih _ h
        · simp at h
        · simp at h
    have e : k + 1 + j = (k + j) + 1 := by omega
    rw [e]
    exact this l cur h

/-- Two successful ways along the same names end at the same place and follow as many links. -/
theorem lwalk_same {k m : Nat} {cur l : List Bytes} {k' m' : Nat} {c d : List Bytes} (h : fs.walk k cur l = .ok (k', c)) (h' : fs.walk m cur l = .ok (m', d)) :
    c = d ∧ k + m' = m + k' := by
  have h1 := lwalk_more fs h m
  have h2 := lwalk_more fs h' k
  rw [Nat.add_comm m k, h1] at h2
  simp only [Res.ok.injEq, Prod.mk.injEq] at h2
  exact ⟨h2.2, by omega⟩

theorem llocate_join {p : Path} {n : Bytes} (hp : p ≠ []) (hn : okName n) :
    fs.locate (Path.join p n) = (fs.locate p >>= fun c => fs.walk c.1 c.2 [n]) := by
  have ha := hn.comp.notAbs
  unfold LinkFs.locate
  rw [if_neg (join_ne_nil ha hn.1), if_neg hp]
  by_cases h0 : 0 ∈ p
  · rw [if_pos ((mem_join ha (by decide)).mpr (Or.inl h0)), if_pos h0]; rfl
  · rw [if_neg (fun h => by rcases (mem_join ha (by decide)).mp h with h | h; exact h0 h; exact hn.2.2.2.2 h), if_neg h0, isAbs_join ha hp]
    obtain ⟨l, hl, e⟩ := splitSlash_join hn.2.2.2.1 hp
    rw [e, lwalk_append]
    generalize (if Path.isAbs p = true then [] else fs.cwd) = cur
    rcases hl with hl | hl
    · rw [hl]
    · rw [hl, lwalk_append]
      cases fs.walk fs.limit cur l with
      | ok c =>
        simp only [Res.ok_bind]
        have hs : ∀ k next, fs.steps k next c.2 [n] = (fs.steps k next c.2 [[]] >>= fun d => fs.steps k next d.2 [n]) := by
          intro k next
          simp only [LinkFs.steps]
          cases h : fs.at c.2 with
          | none => rfl
          | some e => cases e <;> simp [h]
        cases hk : c.1 with
        | zero =>
          have := hs 0 (fun _ _ => .err .io)
          simp only [LinkFs.walk]
          rw [this]
          simp only [LinkFs.steps]
          cases h : fs.at c.2 with
          | none => rfl
          | some e => cases e <;> simp [LinkFs.walk, LinkFs.steps]
        | succ k =>
          have := hs (k + 1) (fs.walk k)
          simp only [LinkFs.walk]
          rw [this]
          simp only [LinkFs.steps]
          cases h : fs.at c.2 with
          | none => rfl
          | some e => cases e <;> simp [LinkFs.walk, LinkFs.steps]
      | err e => rfl
      | panic => rfl
      | fuel => rfl

end

/-! ### One visit of a tree that stands still -/

/-- The answers do not depend on when they are asked for. -/
structure Timeless (A : Answers) : Prop where
  stat : ∀ t p, A.stat t p = A.stat 0 p
  list : ∀ t p, A.list t p = A.list 0 p
  take : ∀ t p, A.take t p = A.take 0 p
  read : ∀ t p, A.read t p = A.read 0 p

/-- The names lead from directory to directory, each is listed and taken. -/
def Goes (A : Answers) (path : Path) (rel : List Bytes) : Prop :=
  ∀ r n, r ++ [n] <+: rel → A.stat 0 (joins path r) = .ok .dir ∧ ∃ l, A.list 0 (joins path r) = .ok l ∧ some n ∈ l ∧ A.take 0 (joins path (r ++ [n])) = .ok true

/-- What is there. -/
def IsThere (A : Answers) (p : Path) : Option (Nat × List ReadEv) → Prop
  | none => A.stat 0 p = .ok .dir
  | some (len, evs) => A.stat 0 p = .ok (.file len) ∧ A.read 0 p = .ok evs

theorem goes_nil (A : Answers) (path : Path) : Goes A path [] := by
  intro r n h
  simp at h

theorem goes_cons {A : Answers} {path : Path} {n : Bytes} {rest : List Bytes} :
    Goes A path (n :: rest) ↔ (A.stat 0 path = .ok .dir ∧ ∃ l, A.list 0 path = .ok l ∧ some n ∈ l ∧ A.take 0 (Path.join path n) = .ok true) ∧ Goes A (Path.join path n) rest := by
  constructor
  · intro h
    refine ⟨h [] n (by simp), fun r m hr => ?_⟩
    have := h (n :: r) m (by simpa using hr)
    exact this
  · rintro ⟨h1, h2⟩ r m hr
    cases r with
    | nil =>
      simp only [List.nil_append, List.cons_prefix_cons, List.nil_prefix, and_true] at hr
      subst hr
      exact h1
    | cons x r =>
      simp only [List.cons_append, List.cons_prefix_cons] at hr
      obtain ⟨rfl, hr⟩ := hr
      exact h2 r m hr

/-- The visit of this path ends well. -/
def LookOk (A : Answers) (path : Path) : Prop := ∃ n t L t', look A n path t = (.ok L, t')

theorem lookEntries_ok {A : Answers} (hA : Timeless A) {n : Nat} {path : Path} {l : List (Option Bytes)} {t t' : Nat} {L : List Seen}
    (h : lookEntries A (look A n) path l t = (.ok L, t')) :
    (∀ m, some m ∈ l → ∃ b, A.take 0 (Path.join path m) = .ok b ∧ (b = true → ∃ tc Lc tc', look A n (Path.join path m) tc = (.ok Lc, tc') ∧ ∀ s ∈ Lc, s.under m ∈ L)) ∧
    ∀ s ∈ L, ∃ m, some m ∈ l ∧ A.take 0 (Path.join path m) = .ok true ∧ ∃ tc Lc tc', look A n (Path.join path m) tc = (.ok Lc, tc') ∧ ∃ s' ∈ Lc, s = s'.under m := by
  induction l generalizing t L with
  | nil =>
    have : L = [] := by
      simp only [lookEntries, SM.pure_apply, Prod.mk.injEq, Res.ok.injEq] at h
      exact h.1.symm
    subst this
    exact ⟨fun m hm => by simp at hm, fun s hs => by simp at hs⟩
  | cons x l ih =>
    cases x with
    | none => simp [lookEntries, SM.throw] at h
    | some x =>
      simp only [lookEntries, SM.bind_apply, tick_apply] at h
      rw [hA.take] at h
      cases hb : A.take 0 (Path.join path x) with
      | ok b =>
        rw [hb] at h
        cases b with
        | false =>
          simp only [Bool.false_eq_true, if_false] at h
          obtain ⟨h1, h2⟩ := ih h
          refine ⟨fun m hm => ?_, fun s hs => ?_⟩
          · rcases List.mem_cons.mp hm with e | hm
            · simp only [Option.some.injEq] at e
              subst e
              exact ⟨false, hb, fun e => by simp at e⟩
            · exact h1 m hm
          · obtain ⟨m, g1, g2⟩ := h2 s hs
            exact ⟨m, by simp [g1], g2⟩
        | true =>
          simp only [if_true, SM.bind_apply] at h
          cases hr : look A n (Path.join path x) (t + 1) with
          | mk r t1 =>
            rw [hr] at h
            cases r with
            | ok Lc =>
              simp only at h
              cases hr2 : lookEntries A (look A n) path l t1 with
              | mk r2 t2 =>
                rw [hr2] at h
                cases r2 with
                | ok L2 =>
                  simp only [SM.pure_apply, Prod.mk.injEq, Res.ok.injEq] at h
                  obtain ⟨rfl, rfl⟩ := h
                  obtain ⟨h1, h2⟩ := ih hr2
                  refine ⟨fun m hm => ?_, fun s hs => ?_⟩
                  · rcases List.mem_cons.mp hm with e | hm
                    · simp only [Option.some.injEq] at e
                      subst e
                      exact ⟨true, hb, fun _ => ⟨_, _, _, hr, fun s hs => by simp; exact Or.inl ⟨s, hs, rfl⟩⟩⟩
                    · obtain ⟨b, g1, g2⟩ := h1 m hm
                      refine ⟨b, g1, fun e => ?_⟩
                      obtain ⟨tc, Lc', tc', g3, g4⟩ := g2 e
                      exact ⟨tc, Lc', tc', g3, fun s hs => by simp only [List.mem_append]; exact Or.inr (g4 s hs)⟩
                  · rcases List.mem_append.mp hs with hs | hs
                    · obtain ⟨s', hs', rfl⟩ := List.mem_map.mp hs
                      exact ⟨x, by simp, hb, _, _, _, hr, s', hs', rfl⟩
                    · obtain ⟨m, g1, g2⟩ := h2 s hs
                      exact ⟨m, by simp [g1], g2⟩
                | err e => simp at h
                | panic => simp at h
                | fuel => simp at h
            | err e => simp at h
            | panic => simp at h
            | fuel => simp at h
      | err e => rw [hb] at h; simp at h
      | panic => rw [hb] at h; simp at h
      | fuel => rw [hb] at h; simp at h

/-- What a visit does at its start. -/
theorem look_ok {A : Answers} (hA : Timeless A) {n : Nat} {path : Path} {t t' : Nat} {L : List Seen} (h : look A n path t = (.ok L, t')) :
    (∃ m l L2 t1 t2, n = m + 1 ∧ A.stat 0 path = .ok .dir ∧ A.list 0 path = .ok l ∧ lookEntries A (look A m) path l t1 = (.ok L2, t2) ∧ L = ⟨[], none⟩ :: L2) ∨
    ∃ len evs, A.stat 0 path = .ok (.file len) ∧ A.read 0 path = .ok evs ∧ L = [⟨[], some (len, evs)⟩] := by
  cases n with
  | zero => simp [look, SM.lift_apply] at h
  | succ m =>
    simp only [look, SM.bind_apply, tick_apply] at h
    rw [hA.stat] at h
    cases hs : A.stat 0 path with
    | ok w =>
      rw [hs] at h
      cases w with
      | dir =>
        simp only [SM.bind_apply, tick_apply] at h
        rw [hA.list] at h
        cases hl : A.list 0 path with
        | ok l =>
          rw [hl] at h
          simp only at h
          cases hr : lookEntries A (look A m) path l (t + 1 + 1) with
          | mk r t2 =>
            rw [hr] at h
            cases r with
            | ok L2 =>
              simp only [SM.pure_apply, Prod.mk.injEq, Res.ok.injEq] at h
              exact Or.inl ⟨m, l, L2, _, _, rfl, rfl, rfl, hr, h.1.symm⟩
            | err e => simp at h
            | panic => simp at h
            | fuel => simp at h
        | err e => rw [hl] at h; simp at h
        | panic => rw [hl] at h; simp at h
        | fuel => rw [hl] at h; simp at h
      | file len =>
        simp only [SM.bind_apply, tick_apply] at h
        rw [hA.read] at h
        cases hl : A.read 0 path with
        | ok l =>
          rw [hl] at h
          simp only [SM.pure_apply, Prod.mk.injEq, Res.ok.injEq] at h
          exact Or.inr ⟨len, l, rfl, rfl, h.1.symm⟩
        | err e => rw [hl] at h; simp at h
        | panic => rw [hl] at h; simp at h
        | fuel => rw [hl] at h; simp at h
      | other => simp [SM.panic] at h
    | err e => rw [hs] at h; simp at h
    | panic => rw [hs] at h; simp at h
    | fuel => rw [hs] at h; simp at h

/-- A visit sees just what the names lead to. -/
theorem look_iff {A : Answers} (hA : Timeless A) {n : Nat} {path : Path} {t t' : Nat} {L : List Seen} (h : look A n path t = (.ok L, t')) (s : Seen) :
    s ∈ L ↔ Goes A path s.rel ∧ IsThere A (joins path s.rel) s.what := by
  induction n generalizing path t t' L s with
  | zero => simp [look, SM.lift_apply] at h
  | succ n ih =>
    obtain ⟨rel, w⟩ := s
    rcases look_ok hA h with ⟨m, l, L2, t1, t2, hm, h1, h2, h3, rfl⟩ | ⟨len, evs, h1, h2, rfl⟩
    · obtain rfl : n = m := by omega
      obtain ⟨g1, g2⟩ := lookEntries_ok hA h3
      constructor
      · intro hs
        rcases List.mem_cons.mp hs with e | hs
        · simp only [Seen.mk.injEq] at e
          obtain ⟨rfl, rfl⟩ := e
          exact ⟨goes_nil _ _, h1⟩
        · obtain ⟨m, k1, k2, tc, Lc, tc', k3, ⟨rel', w'⟩, k4, k5⟩ := g2 _ hs
          simp only [Seen.under, Seen.mk.injEq] at k5
          obtain ⟨rfl, rfl⟩ := k5
          obtain ⟨j1, j2⟩ := (ih k3 ⟨rel', w⟩).mp k4
          exact ⟨goes_cons.mpr ⟨⟨h1, l, h2, k1, k2⟩, j1⟩, j2⟩
      · rintro ⟨k1, k2⟩
        cases rel with
        | nil =>
          have : w = none := by
            cases w with
            | none => rfl
            | some x =>
              have := k2.1
              simp only [joins, List.foldl_nil] at this
              rw [h1] at this
              simp at this
          subst this
          simp
        | cons x rel =>
          obtain ⟨⟨_, l', j2, j3, j4⟩, j5⟩ := goes_cons.mp k1
          rw [h2] at j2
          simp only [Res.ok.injEq] at j2
          subst j2
          obtain ⟨b, i1, i2⟩ := g1 x j3
          rw [j4] at i1
          simp only [Res.ok.injEq] at i1
          obtain ⟨tc, Lc, tc', i3, i4⟩ := i2 i1.symm
          exact List.mem_cons_of_mem _ (i4 ⟨rel, w⟩ ((ih i3 ⟨rel, w⟩).mpr ⟨j5, k2⟩))
    · constructor
      · intro hs
        simp only [List.mem_singleton, Seen.mk.injEq] at hs
        obtain ⟨rfl, rfl⟩ := hs
        exact ⟨goes_nil _ _, h1, h2⟩
      · rintro ⟨k1, k2⟩
        cases rel with
        | nil =>
          cases w with
          | none =>
            have : A.stat 0 path = .ok .dir := k2
            rw [h1] at this
            simp at this
          | some x =>
            have e1 : A.stat 0 path = .ok (.file x.1) := k2.1
            have e2 : A.read 0 path = .ok x.2 := k2.2
            rw [h1] at e1
            rw [h2] at e2
            simp only [Res.ok.injEq, What.file.injEq] at e1 e2
            rw [e1, e2]
            simp
        | cons x rel =>
          have := (goes_cons.mp k1).1.1
          rw [h1] at this
          simp at this

/-- The visit of a directory asks about each entry, and visits those that are taken. -/
theorem lookOk_child {A : Answers} (hA : Timeless A) {path : Path} (h : LookOk A path) {l : List (Option Bytes)} (hs : A.stat 0 path = .ok .dir) (hl : A.list 0 path = .ok l) {m : Bytes}
    (hm : some m ∈ l) : ∃ b, A.take 0 (Path.join path m) = .ok b ∧ (b = true → LookOk A (Path.join path m)) := by
  obtain ⟨n, t, L, t', h⟩ := h
  rcases look_ok hA h with ⟨m', l', L2, t1, t2, _, h1, h2, h3, _⟩ | ⟨len, evs, h1, _⟩
  · rw [hl] at h2
    simp only [Res.ok.injEq] at h2
    subst h2
    obtain ⟨b, g1, g2⟩ := (lookEntries_ok hA h3).1 m hm
    refine ⟨b, g1, fun e => ?_⟩
    obtain ⟨tc, Lc, tc', g3, _⟩ := g2 e
    exact ⟨_, _, _, _, g3⟩
  · rw [hs] at h1
    simp at h1

theorem lookOk_goes {A : Answers} (hA : Timeless A) {path : Path} (h : LookOk A path) {rel : List Bytes} (hg : Goes A path rel) : LookOk A (joins path rel) := by
  induction rel generalizing path with
  | nil => exact h
  | cons x rel ih =>
    obtain ⟨⟨h1, l, h2, h3, h4⟩, h5⟩ := goes_cons.mp hg
    obtain ⟨b, g1, g2⟩ := lookOk_child hA h h1 h2 h3
    rw [h4] at g1
    simp only [Res.ok.injEq] at g1
    exact ih (g2 g1.symm) h5

/-! ### What is seen through links -/

section
variable {fs : LinkFs}

theorem lcanon_iff {p : Path} {q : List Bytes} : fs.canonicalize p = .ok q ↔ ∃ k e, fs.locate p = .ok (k, q) ∧ fs.at q = some e := by
  unfold LinkFs.canonicalize
  constructor
  · intro h
    obtain ⟨⟨k, q'⟩, h1, h2⟩ := Res.bind_eq_ok h
    simp only at h2
    cases ha : fs.at q' with
    | none => rw [ha] at h2; simp at h2
    | some e =>
      rw [ha] at h2
      simp only [Res.ok.injEq] at h2
      subst h2
      exact ⟨k, e, h1, ha⟩
  · rintro ⟨k, e, h1, h2⟩
    rw [h1, Res.ok_bind, h2]

theorem lmeta_iff {p : Path} {e : LinkEnt} : fs.metadata p = .ok e ↔ ∃ q, fs.canonicalize p = .ok q ∧ fs.at q = some e := by
  constructor
  · intro h
    unfold LinkFs.metadata at h
    obtain ⟨⟨k, q⟩, h1, h2⟩ := Res.bind_eq_ok h
    simp only at h2
    cases ha : fs.at q with
    | none => rw [ha] at h2; simp at h2
    | some e' =>
      rw [ha] at h2
      simp only [Res.ok.injEq] at h2
      subst h2
      exact ⟨q, lcanon_iff.mpr ⟨k, _, h1, ha⟩, ha⟩
  · rintro ⟨q, h1, h2⟩
    obtain ⟨k, e', h3, h4⟩ := lcanon_iff.mp h1
    unfold LinkFs.metadata
    rw [h3, Res.ok_bind, h2]

theorem lreadDir {p : Path} {q : List Bytes} (h : fs.canonicalize p = .ok q) (hd : fs.at q = some .dir) : fs.readDir p = .ok (fs.names q) := by
  obtain ⟨k, e', h3, h4⟩ := lcanon_iff.mp h
  unfold LinkFs.readDir
  rw [h3, Res.ok_bind, hd]

theorem lfilter_iff {glob : Path → Bool} {dbPath p : Path} : fs.filter glob dbPath p = .ok true ↔
    ∃ q d, fs.canonicalize p = .ok q ∧ fs.canonicalize dbPath = .ok d ∧ ¬ d <+: q ∧ glob (stripDot p) = false := by
  unfold LinkFs.filter
  cases h1 : fs.canonicalize p with
  | ok q =>
    cases h2 : fs.canonicalize dbPath with
    | ok d =>
      simp only [Res.unwrap, Res.ok_bind, Res.ok.injEq, exists_eq_left', exists_and_left]
      split
      · rename_i hp
        have := List.isPrefixOf_iff_prefix.mp hp
        simp [this, pure]
      · rename_i hp
        have : ¬ d <+: q := fun h => hp (List.isPrefixOf_iff_prefix.mpr h)
        simp [this, pure]
    | err e => simp [Res.unwrap]
    | panic => simp [Res.unwrap]
    | fuel => simp [Res.unwrap]
  | err e => simp [Res.unwrap]
  | panic => simp [Res.unwrap]
  | fuel => simp [Res.unwrap]

variable {E : Env} {glob : Path → Bool} {dbPath : Path}

theorem timeless (fs : LinkFs) (E : Env) (glob : Path → Bool) (dbPath : Path) : Timeless (fs.answers E glob dbPath) := ⟨fun _ _ => rfl, fun _ _ => rfl, fun _ _ => rfl, fun _ _ => rfl⟩

theorem lstat_dir {p : Path} {t : Nat} : (fs.answers E glob dbPath).stat t p = .ok .dir ↔ ∃ q, fs.canonicalize p = .ok q ∧ fs.at q = some .dir := by
  have : (fs.answers E glob dbPath).stat t p = (fs.metadata p).bind fun
    | .dir => .ok .dir
    | .file c _ => .ok (.file c.length)
    | _ => .ok .other := rfl
  rw [this, ← lmeta_iff]
  cases h : fs.metadata p with
  | ok e => cases e <;> simp [Res.bind]
  | _ => simp [Res.bind]

theorem lstat_file {p : Path} {t len : Nat} : (fs.answers E glob dbPath).stat t p = .ok (.file len) ↔ ∃ q c md, fs.canonicalize p = .ok q ∧ fs.at q = some (.file c md) ∧ c.length = len := by
  have : (fs.answers E glob dbPath).stat t p = (fs.metadata p).bind fun
    | .dir => .ok .dir
    | .file c _ => .ok (.file c.length)
    | _ => .ok .other := rfl
  rw [this]
  constructor
  · intro h
    cases hm : fs.metadata p with
    | ok e =>
      rw [hm] at h
      obtain ⟨q, g1, g2⟩ := lmeta_iff.mp hm
      cases e <;> simp [Res.bind] at h
      exact ⟨q, _, _, g1, g2, h⟩
    | _ => rw [hm] at h; simp [Res.bind] at h
  · rintro ⟨q, c, md, g1, g2, rfl⟩
    rw [lmeta_iff.mpr ⟨q, g1, g2⟩]
    rfl

theorem lread {p : Path} {t : Nat} {q : List Bytes} {c : Bytes} {md : FileMeta} (h : fs.canonicalize p = .ok q) (ha : fs.at q = some (.file c md)) :
    (fs.answers E glob dbPath).read t p = .ok (E.rd p c) := by
  have : (fs.answers E glob dbPath).read t p = (fs.metadata p).bind fun
    | .file c _ => .ok (E.rd p c)
    | _ => .err .io := rfl
  rw [this, lmeta_iff.mpr ⟨q, h, ha⟩]
  rfl

theorem llist {p : Path} {t : Nat} {q : List Bytes} (h : fs.canonicalize p = .ok q) (hd : fs.at q = some .dir) :
    (fs.answers E glob dbPath).list t p = .ok ((fs.names q).map some) := by
  have : (fs.answers E glob dbPath).list t p = (fs.readDir p).bind fun l => .ok (l.map some) := rfl
  rw [this, lreadDir h hd]
  rfl

theorem reached_iff {path : Path} {s : Seen} : Goes (fs.answers E glob dbPath) path s.rel ∧ IsThere (fs.answers E glob dbPath) (joins path s.rel) s.what ↔ Spec.Reached fs E glob dbPath path s := by
  obtain ⟨rel, w⟩ := s
  constructor
  · rintro ⟨h1, h2⟩
    refine ⟨fun r n hr => ?_, ?_⟩
    · obtain ⟨g1, l, g2, g3, g4⟩ := h1 r n hr
      obtain ⟨q, k1, k2⟩ := lstat_dir.mp g1
      rw [llist k1 k2] at g2
      simp only [Res.ok.injEq] at g2
      subst g2
      obtain ⟨q', d, j1, j2, j3, j4⟩ := lfilter_iff.mp (show fs.filter glob dbPath (joins path (r ++ [n])) = .ok true from g4)
      exact ⟨q, q', d, k1, k2, by simpa using g3, j1, j2, j3, j4⟩
    · cases w with
      | none =>
        obtain ⟨q, k1, k2⟩ := lstat_dir.mp h2
        exact ⟨q, k1, k2⟩
      | some x =>
        obtain ⟨g1, g2⟩ := h2
        obtain ⟨q, c, md, k1, k2, k3⟩ := lstat_file.mp g1
        rw [lread k1 k2] at g2
        simp only [Res.ok.injEq] at g2
        exact ⟨q, k1, c, md, k2, k3.symm, g2.symm⟩
  · rintro ⟨h1, h2⟩
    refine ⟨fun r n hr => ?_, ?_⟩
    · obtain ⟨q, q', d, k1, k2, k3, k4, k5, k6, k7⟩ := h1 r n hr
      exact ⟨lstat_dir.mpr ⟨q, k1, k2⟩, _, llist k1 k2, by simpa using k3, lfilter_iff.mpr ⟨q', d, k4, k5, k6, k7⟩⟩
    · obtain ⟨q, k1, k2⟩ := h2
      cases w with
      | none => exact lstat_dir.mpr ⟨q, k1, k2⟩
      | some x =>
        obtain ⟨c, md, k2, k3, k4⟩ := k2
        exact ⟨lstat_file.mpr ⟨q, c, md, k1, k2, k3.symm⟩, by rw [lread k1 k2]; exact congrArg _ k4.symm⟩

/-! ### It ends -/

theorem lsteps_fuel {k : Nat} {next : List Bytes → List Bytes → Res (Nat × List Bytes)} (hn : ∀ cur l, next cur l ≠ .fuel) (cur l : List Bytes) : fs.steps k next cur l ≠ .fuel := by
  induction l generalizing cur with
  | nil => exact nofun
  | cons s l ih =>
    simp only [LinkFs.steps]
    split
    · split
      · exact ih _
      · split
        · exact ih _
        · split
          · split
            · exact nofun
            · exact hn _ _
          · exact ih _
    · exact nofun
    · exact nofun

theorem lwalk_fuel (k : Nat) (cur l : List Bytes) : fs.walk k cur l ≠ .fuel := by
  induction k generalizing cur l with
  | zero => exact lsteps_fuel (next := fun _ _ => .err .io) (fun _ _ => nofun) cur l
  | succ k ih => exact lsteps_fuel (fun cur l => ih cur l) cur l

theorem llocate_fuel (p : Path) : fs.locate p ≠ .fuel := by
  unfold LinkFs.locate
  split
  · exact nofun
  · split
    · exact nofun
    · exact lwalk_fuel _ _ _

theorem lcanon_fuel (p : Path) : fs.canonicalize p ≠ .fuel := by
  refine res_bind_fuel (llocate_fuel p) fun q _ => ?_
  split <;> exact nofun

theorem lmeta_fuel (p : Path) : fs.metadata p ≠ .fuel := by
  refine res_bind_fuel (llocate_fuel p) fun q _ => ?_
  split <;> exact nofun

theorem lreadDir_fuel (p : Path) : fs.readDir p ≠ .fuel := by
  refine res_bind_fuel (llocate_fuel p) fun q _ => ?_
  split <;> exact nofun

theorem lfilter_fuel (p : Path) : fs.filter glob dbPath p ≠ .fuel := by
  refine res_bind_fuel (unwrap_fuel (lcanon_fuel p)) fun q _ => res_bind_fuel (unwrap_fuel (lcanon_fuel _)) fun d _ => ?_
  split <;> exact nofun

theorem lat_length {D : Nat} (hD : ∀ e ∈ fs.ents, e.1.length ≤ D) {q : List Bytes} {e : LinkEnt} (h : fs.at q = some e) : q.length ≤ D := by
  by_cases h0 : q = []
  · simp [h0]
  · unfold LinkFs.at at h
    rw [if_neg h0] at h
    cases hf : fs.ents.find? (·.1 == q) with
    | none => rw [hf] at h; simp at h
    | some x =>
      have := hD x (List.mem_of_find?_eq_some hf)
      have := List.find?_some hf
      simp at this
      rw [← this]; assumption

theorem lname_mem {q : List Bytes} {n : Bytes} (h : n ∈ fs.names q) : ∃ e ∈ fs.ents, e.1 = q ++ [n] := by
  unfold LinkFs.names at h
  obtain ⟨e, he, h⟩ := List.mem_filterMap.mp h
  split at h
  · rename_i h1
    refine ⟨e, he, ?_⟩
    rw [← h1.2]
    obtain ⟨ys, hy⟩ := List.getLast?_eq_some_iff.mp h
    rw [hy]; simp
  · simp at h

theorem lname_ok (hs : fs.Sane) {q : List Bytes} {n : Bytes} (h : n ∈ fs.names q) : okName n := by
  obtain ⟨e, he, h1⟩ := lname_mem h
  exact hs.names e he n (by rw [h1]; simp)

theorem lnames_nodup (hs : fs.Sane) (q : List Bytes) : (fs.names q).Nodup := by
  have h : fs.names q = Fs.names { ents := fs.ents.map fun e => (e.1, .dir) } q := by
    unfold LinkFs.names Fs.names
    rw [List.filterMap_map]
    rfl
  rw [h]
  refine names_nodup ?_ q
  simpa [List.map_map, Function.comp_def] using hs.nodup

theorem lproper (hs : fs.Sane) (E : Env) (glob : Path → Bool) (dbPath : Path) : Spec.Proper (fs.answers E glob dbPath) := by
  intro t p l h
  have h' : (fs.readDir p).bind (fun l => .ok (l.map some)) = .ok l := h
  cases hr : fs.readDir p with
  | ok l' =>
    rw [hr] at h'
    simp only [Res.bind, Res.ok.injEq] at h'
    subst h'
    obtain ⟨⟨k, q⟩, g1, g2⟩ := Res.bind_eq_ok (show (fs.locate p >>= fun q => _) = .ok l' from hr)
    simp only at g2
    split at g2
    · simp only [Res.ok.injEq] at g2
      subst g2
      refine ⟨?_, ?_⟩
      · intro n hn
        obtain ⟨m, hm, e⟩ := List.mem_map.mp hn
        simp only [Option.some.injEq] at e
        subst e
        exact lname_ok hs hm
      · rw [List.filterMap_map, show (id ∘ some : Bytes → Option Bytes) = some from rfl, List.filterMap_some]
        exact lnames_nodup hs q
    · simp at g2
    · simp at g2
  | err e => rw [hr] at h'; simp [Res.bind] at h'
  | panic => rw [hr] at h'; simp [Res.bind] at h'
  | fuel => rw [hr] at h'; simp [Res.bind] at h'

theorem locate_ne {p : Path} {x : Nat × List Bytes} (h : fs.locate p = .ok x) : p ≠ [] := by
  rintro rfl; simp [LinkFs.locate] at h

/-- How far it is to the end at most. -/
def farness (D k : Nat) (q : List Bytes) : Nat := k * (D + 1) + (D - q.length)

theorem farness_lt {D : Nat} (hD : ∀ e ∈ fs.ents, e.1.length ≤ D) {p : Path} {k : Nat} {q : List Bytes} (hl : fs.locate p = .ok (k, q)) {n : Bytes} (hn : okName n)
    {k' : Nat} {q' : List Bytes} (hl' : fs.locate (Path.join p n) = .ok (k', q')) {e : LinkEnt} (ha : fs.at q' = some e) : farness D k' q' < farness D k q := by
  rw [llocate_join fs (locate_ne hl) hn, hl, Res.ok_bind] at hl'
  have h1 := lat_length hD ha
  obtain ⟨hd, ⟨rfl, rfl, _⟩ | hlt⟩ := lwalk_name fs hn hl'
  · unfold farness
    rw [List.length_append, List.length_singleton] at h1 ⊢
    simp only at h1 ⊢
    omega
  · unfold farness
    have : (k' + 1) * (D + 1) ≤ k * (D + 1) := Nat.mul_le_mul_right _ hlt
    rw [Nat.add_mul] at this
    omega

theorem halts_ask {α} {f : Nat → Res α} (h : ∀ t, f t ≠ .fuel) : Halts (ask f) := fun s => h s.2
theorem halts_sfst {α} {x : M α} (h : Halts x) : Halts (SM.fst (τ := Nat) x) := fun s => h s.1

theorem halts_putRead (E : Env) (evs : List ReadEv) (len : Nat) : Halts (putRead E evs len) :=
  halts_bind (halts_putData _ _ _) fun _ _ _ _ => halts_bind (halts_lift (toObject_fuel _)) fun _ _ _ _ => halts_putObj _ _

theorem halts_links (hs : fs.Sane) {D : Nat} (hD : ∀ e ∈ fs.ents, e.1.length ≤ D) (n : Nat) (p : Path) (h0 : 0 < n)
    (hn : ∀ k q, fs.locate p = .ok (k, q) → farness D k q + 1 < n) : Halts (putLive E (fs.answers E glob dbPath) n p) := by
  induction n generalizing p with
  | zero => omega
  | succ n ih =>
    unfold putLive
    refine halts_bind (halts_ask fun t => ?_) fun w s s' hw => ?_
    · refine res_bind_fuel (lmeta_fuel p) fun e _ => ?_
      cases e <;> exact nofun
    have hw : (fs.answers E glob dbPath).stat s.2 p = .ok w := (Prod.mk.injEq _ _ _ _ ▸ hw).1
    cases w with
    | dir =>
      obtain ⟨q, g1, g2⟩ := lstat_dir.mp hw
      obtain ⟨k, _, g3, _⟩ := lcanon_iff.mp g1
      refine halts_bind (halts_ask fun t => res_bind_fuel (lreadDir_fuel p) fun _ _ => nofun) fun names s s' hr => ?_
      have hr : (fs.answers E glob dbPath).list s.2 p = .ok names := (Prod.mk.injEq _ _ _ _ ▸ hr).1
      rw [llist g1 g2] at hr
      simp only [Res.ok.injEq] at hr
      have hent : ∀ l : List (Option Bytes), (∀ m, some m ∈ l → okName m) → Halts (putEntriesLive (fs.answers E glob dbPath) (putLive E (fs.answers E glob dbPath) n) p l) := by
        intro l hl
        induction l with
        | nil => exact halts_pure _
        | cons m l ihl =>
          cases m with
          | none => exact halts_throw _
          | some m =>
            have ihl := ihl fun m hm => hl m (by simp [hm])
            have hm := hl m (by simp)
            unfold putEntriesLive
            refine halts_bind (halts_ask fun t => lfilter_fuel _) fun b s s' hb => ?_
            cases b with
            | false => exact ihl
            | true =>
              have hb : fs.filter glob dbPath (Path.join p m) = .ok true := (Prod.mk.injEq _ _ _ _ ▸ hb).1
              obtain ⟨q', _, j1, _⟩ := lfilter_iff.mp hb
              obtain ⟨k', e', j2, j3⟩ := lcanon_iff.mp j1
              have := farness_lt hD g3 hm j2 j3
              have := hn k q g3
              refine halts_bind (ih _ (by omega) fun k'' q'' h => ?_) fun _ _ _ _ => halts_bind ihl fun _ _ _ _ => halts_pure _
              rw [j2] at h
              simp only [Res.ok.injEq, Prod.mk.injEq] at h
              rw [← h.1, ← h.2]
              omega
      refine halts_bind (hent names ?_) fun _ _ _ _ => halts_sfst (halts_bind (halts_lift (toObject_fuel _)) fun _ _ _ _ => halts_putObj _ _)
      subst hr
      intro m hm
      exact lname_ok hs (by simpa using hm)
    | file len =>
      refine halts_bind (halts_ask fun t => ?_) fun evs _ _ _ => halts_sfst (halts_putRead E evs len)
      refine res_bind_fuel (lmeta_fuel p) fun e _ => ?_
      cases e <;> exact nofun
    | other => exact halts_panic

/-! ### Directories that contain themselves -/

theorem llocate_joins {p : Path} (hp : p ≠ []) {l : List Bytes} (hl : ∀ n ∈ l, okName n) : fs.locate (joins p l) = (fs.locate p >>= fun c => fs.walk c.1 c.2 l) := by
  induction l generalizing p with
  | nil =>
    rw [joins_nil]
    cases h : fs.locate p with
    | ok c =>
      rw [Res.ok_bind]
      cases hc : c.1 <;> simp [LinkFs.walk, LinkFs.steps, ← hc]
    | _ => rfl
  | cons n l ih =>
    have hn := hl n (by simp)
    rw [joins_cons, ih (join_ne_nil hn.comp.notAbs hn.1) fun m hm => hl m (by simp [hm]), llocate_join fs hp hn]
    cases h : fs.locate p with
    | ok c =>
      simp only [Res.ok_bind]
      rw [← lwalk_append]
      rfl
    | _ => rfl

theorem lwalk_grows {l : List Bytes} (hl : ∀ n ∈ l, okName n) {k k' : Nat} {q q' : List Bytes} (h : fs.walk k q l = .ok (k', q')) :
    k' < k ∨ k' = k ∧ q'.length = q.length + l.length := by
  induction l generalizing k q with
  | nil =>
    right
    cases k <;> simp only [LinkFs.walk, LinkFs.steps, Res.ok.injEq, Prod.mk.injEq] at h <;> exact ⟨h.1.symm, by rw [h.2]; rfl⟩
  | cons n l ih =>
    have e : fs.walk k q (n :: l) = fs.walk k q [n] >>= fun c => fs.walk c.1 c.2 l := lwalk_append fs k q [n] l
    rw [e] at h
    obtain ⟨⟨k1, q1⟩, h1, h2⟩ := Res.bind_eq_ok h
    have h2 : fs.walk k1 q1 l = .ok (k', q') := h2
    have hle := lwalk_le fs h2
    rcases (lwalk_name fs (hl n (by simp)) h1).2 with ⟨rfl, rfl, _⟩ | hlt
    · rcases ih (fun m hm => hl m (by simp [hm])) h2 with g | ⟨g1, g2⟩
      · exact Or.inl g
      · right
        refine ⟨g1, ?_⟩
        rw [g2]; simp; omega
    · left; omega

theorem goes_names (hs : fs.Sane) {path : Path} {l : List Bytes} (h : Goes (fs.answers E glob dbPath) path l) : ∀ n ∈ l, okName n := by
  intro n hn
  obtain ⟨a, b, rfl⟩ := List.append_of_mem hn
  obtain ⟨g1, l, g2, g3, _⟩ := h a n ⟨b, by simp⟩
  obtain ⟨q, k1, k2⟩ := lstat_dir.mp g1
  rw [llist k1 k2] at g2
  simp only [Res.ok.injEq] at g2
  subst g2
  exact lname_ok hs (by simpa using g3)

/-- From the same place the same names lead to the same place, if the visit goes well. -/
theorem lookOk_again (hs : fs.Sane) {r : List Bytes} {p0 p : Path} {k0 k : Nat} {q : List Bytes} (hg : Goes (fs.answers E (fun _ => false) dbPath) p0 r)
    (h0 : fs.locate p0 = .ok (k0, q)) (h : fs.locate p = .ok (k, q)) (hl : LookOk (fs.answers E (fun _ => false) dbPath) p) :
    LookOk (fs.answers E (fun _ => false) dbPath) (joins p r) ∧ ∃ k' k0' q', fs.locate (joins p r) = .ok (k', q') ∧ fs.locate (joins p0 r) = .ok (k0', q') := by
  induction r generalizing p0 p k0 k q with
  | nil => exact ⟨hl, k, k0, q, h, h0⟩
  | cons n r ih =>
    have hn := goes_names hs hg n (by simp)
    obtain ⟨⟨g1, l, g2, g3, g4⟩, g5⟩ := goes_cons.mp hg
    obtain ⟨q', k1, k2⟩ := lstat_dir.mp g1
    rw [llist k1 k2] at g2
    simp only [Res.ok.injEq] at g2
    subst g2
    obtain ⟨k', e', j1, j2⟩ := lcanon_iff.mp k1
    rw [h0] at j1
    simp only [Res.ok.injEq, Prod.mk.injEq] at j1
    obtain ⟨_, rfl⟩ := j1
    have hc : fs.canonicalize p = .ok q := lcanon_iff.mpr ⟨k, _, h, k2⟩
    obtain ⟨b, i1, i2⟩ := lookOk_child (timeless _ _ _ _) hl (lstat_dir.mpr ⟨q, hc, k2⟩) (llist hc k2) g3
    obtain ⟨q1, d, c1, c2, c3, _⟩ := lfilter_iff.mp (show fs.filter (fun _ => false) dbPath (Path.join p0 n) = .ok true from g4)
    have i1 : fs.filter (fun _ => false) dbPath (Path.join p n) = .ok b := i1
    have hcan : ∃ q2, fs.canonicalize (Path.join p n) = .ok q2 := by
      cases hx : fs.canonicalize (Path.join p n) with
      | ok q2 => exact ⟨q2, rfl⟩
      | err e => simp [LinkFs.filter, hx, Res.unwrap] at i1
      | panic => simp [LinkFs.filter, hx, Res.unwrap] at i1
      | fuel => simp [LinkFs.filter, hx, Res.unwrap] at i1
    obtain ⟨q2, hq2⟩ := hcan
    obtain ⟨m1, _, l1, _⟩ := lcanon_iff.mp c1
    obtain ⟨m2, _, l2, _⟩ := lcanon_iff.mp hq2
    have l1' := l1
    have l2' := l2
    rw [llocate_join fs (locate_ne h0) hn, h0, Res.ok_bind] at l1'
    rw [llocate_join fs (locate_ne h) hn, h, Res.ok_bind] at l2'
    obtain ⟨rfl, _⟩ := lwalk_same fs l1' l2'
    have hf : fs.filter (fun _ => false) dbPath (Path.join p n) = .ok true := lfilter_iff.mpr ⟨q1, d, hq2, c2, c3, rfl⟩
    rw [hf] at i1
    simp only [Res.ok.injEq] at i1
    exact ih g5 l1 l2 (i2 i1.symm)

theorem cycle_fails (hs : fs.Sane) {p0 : Path} {r : List Bytes} (hr : r ≠ []) {k0 k1 : Nat} {q : List Bytes} (hg : Goes (fs.answers E (fun _ => false) dbPath) p0 r)
    (h0 : fs.locate p0 = .ok (k0, q)) (h1 : fs.locate (joins p0 r) = .ok (k1, q)) (k : Nat) (p : Path) (h : fs.locate p = .ok (k, q)) :
    ¬ LookOk (fs.answers E (fun _ => false) dbPath) p := by
  induction k using Nat.strongRecOn generalizing p with
  | ind k ih =>
    intro hl
    obtain ⟨g1, k', k0', q', g2, g3⟩ := lookOk_again hs hg h0 h hl
    rw [h1] at g3
    simp only [Res.ok.injEq, Prod.mk.injEq] at g3
    obtain ⟨_, rfl⟩ := g3
    have hw := g2
    rw [llocate_joins (locate_ne h) (goes_names hs hg), h, Res.ok_bind] at hw
    rcases lwalk_grows (goes_names hs hg) hw with hlt | ⟨_, hle⟩
    · exact ih k' hlt _ g2 g1
    · have : 0 < r.length := List.length_pos_iff.mpr hr
      simp only at hle
      omega

end

/-! ### Without links -/

theorem aslinks_at (fs : Fs) (limit : Nat) (q : List Bytes) : (fs.asLinks limit).at q = (fs.at q).map fun
    | .dir => .dir
    | .file c md => .file c md
    | .special => .special
    | .broken => .link [] := by
  unfold LinkFs.at Fs.at
  by_cases h : q = []
  · simp [h]
  · rw [if_neg h, if_neg h]
    simp only [Fs.asLinks, List.find?_map, Option.map_map]
    rfl

theorem aslinks_steps {fs : Fs} (hs : fs.Sane) (limit k : Nat) (next : List Bytes → List Bytes → Res (Nat × List Bytes)) (cur l : List Bytes) (hc : fs.at cur ≠ some .broken) :
    (fs.asLinks limit).steps k next cur l = match fs.walk cur l with
      | .ok q => if fs.at q = some .broken then .err .enoent else .ok (k, q)
      | .err e => .err e
      | .panic => .panic
      | .fuel => .fuel := by
  induction l generalizing cur with
  | nil =>
    simp only [LinkFs.steps, Fs.walk]
    rw [if_neg hc]
  | cons s l ih =>
    simp only [LinkFs.steps, Fs.walk]
    rw [aslinks_at]
    cases h : fs.at cur with
    | none => rfl
    | some e =>
      cases e with
      | dir =>
        simp only [Option.map_some]
        split
        · exact ih cur hc
        · split
          · refine ih _ ?_
            rcases List.eq_nil_or_concat cur with rfl | ⟨a, x, rfl⟩
            · simp
            · rw [List.concat_eq_append] at h ⊢
              rw [List.dropLast_concat, hs.parents a x (by rw [h]; simp)]
              simp
          · rw [aslinks_at]
            cases h' : fs.at (cur ++ [s]) with
            | none => exact ih _ (by rw [h']; simp)
            | some e' =>
              cases e' with
              | broken =>
                simp only [Option.map_some, if_true]
                cases l with
                | nil => simp [Fs.walk, h']
                | cons s' l => simp [Fs.walk, h']
              | dir => exact ih _ (by rw [h']; simp)
              | file c md => exact ih _ (by rw [h']; simp)
              | special => exact ih _ (by rw [h']; simp)
      | broken => exact (hc h).elim
      | file c md => rfl
      | special => rfl

theorem aslinks_locate {fs : Fs} (hs : fs.Sane) (hc : fs.at fs.cwd = some .dir) (limit : Nat) (p : Path) : (fs.asLinks limit).locate p = match fs.locate p with
      | .ok q => if fs.at q = some .broken then .err .enoent else .ok (limit, q)
      | .err e => .err e
      | .panic => .panic
      | .fuel => .fuel := by
  unfold LinkFs.locate Fs.locate
  split
  · rfl
  · split
    · rfl
    · have : ∀ cur l, (fs.asLinks limit).walk limit cur l = (fs.asLinks limit).steps limit (match limit with | 0 => fun _ _ => .err .io | k + 1 => (fs.asLinks limit).walk k) cur l := by
        intro cur l
        cases limit <;> rfl
      have hl : (fs.asLinks limit).limit = limit := rfl
      have hcw : (fs.asLinks limit).cwd = fs.cwd := rfl
      rw [hl, hcw, this]
      exact aslinks_steps hs _ _ _ _ _ (by split <;> simp [hc])

/-! ### The property -/

/-- **C94** (links are only another way to the same things): on the file systems the other theorems are about, which have no links except dangling ones, `put_fs_item` sees the same
in this model as in theirs. -/
theorem C94_plain (fs : Fs) (hs : fs.Sane) (hc : fs.at fs.cwd = some .dir) (limit : Nat) (E : Env) (glob : Path → Bool) (dbPath : Path) :
    (fs.asLinks limit).answers E glob dbPath = Spec.still E fs (makeFilter glob dbPath) := by
  have hm : ∀ p, (fs.asLinks limit).metadata p = (fs.metadata p).bind fun
      | .dir => .ok .dir
      | .file c md => .ok (.file c md)
      | .special => .ok .special
      | .broken => .err .enoent := by
    intro p
    unfold LinkFs.metadata Fs.metadata
    rw [aslinks_locate hs hc]
    cases fs.locate p with
    | ok q =>
      simp only [Res.ok_bind]
      cases h : fs.at q with
      | none => simp [aslinks_at, h, Res.bind]
      | some e => cases e <;> simp [aslinks_at, h, Res.bind]
    | err e => rfl
    | panic => rfl
    | fuel => rfl
  have hb : ∀ p, fs.metadata p ≠ .ok .broken := by
    intro p h
    unfold Fs.metadata at h
    obtain ⟨q, _, h⟩ := Res.bind_eq_ok h
    cases h' : fs.at q with
    | none => simp [h'] at h
    | some e => cases e <;> simp [h'] at h
  have hr : ∀ p, (fs.asLinks limit).readDir p = fs.readDir p := by
    intro p
    unfold LinkFs.readDir Fs.readDir
    rw [aslinks_locate hs hc]
    cases fs.locate p with
    | ok q =>
      simp only [Res.ok_bind]
      have hn : (fs.asLinks limit).names q = fs.names q := by
        unfold LinkFs.names Fs.names Fs.asLinks
        rw [List.filterMap_map]
        rfl
      cases h : fs.at q with
      | none => simp [aslinks_at, h]
      | some e => cases e <;> simp [aslinks_at, h, hn]
    | err e => rfl
    | panic => rfl
    | fuel => rfl
  have hk : ∀ p, (fs.asLinks limit).canonicalize p = fs.canonicalize p := by
    intro p
    unfold LinkFs.canonicalize Fs.canonicalize
    rw [aslinks_locate hs hc]
    cases fs.locate p with
    | ok q =>
      simp only [Res.ok_bind]
      cases h : fs.at q with
      | none => simp [aslinks_at, h]
      | some e => cases e <;> simp [aslinks_at, h]
    | err e => rfl
    | panic => rfl
    | fuel => rfl
  unfold LinkFs.answers Spec.still Spec.during
  congr 1
  · funext t p
    simp only [hm]
    cases h : fs.metadata p with
    | ok e => cases e with
      | broken => exact (hb p h).elim
      | _ => simp [Res.bind]
    | _ => rfl
  · funext t p
    rw [hr]
  · funext t p
    unfold LinkFs.filter makeFilter
    rw [hk, hk]
  · funext t p
    simp only [hm]
    cases h : fs.metadata p with
    | ok e => cases e with
      | broken => exact (hb p h).elim
      | _ => simp [Res.bind]
    | _ => rfl

/-- **C94** (what is stored): a tree with a node for each place reached by following entries of directories and whatever links they are, and with the contents found there. -/
theorem C94_stored (E : Env) (fs : LinkFs) (glob : Path → Bool) (dbPath : Path) (n : Nat) (path : Path) (db db' : Db) (t t' : Nat) (k : Key) (hi : Inv E.H db)
    (h : putLive E (fs.answers E glob dbPath) n path (db, t) = (.ok k, (db', t'))) (hc : NoColl E.H db') :
    ∃ ps : List (KNode × Seen), Snap.Stored db' n k (ps.map (·.1)) ∧ (∀ x ∈ ps, x.1.node.rel = x.2.rel ∧ Spec.KeptOf E.table x.1.node.content x.2.what) ∧
      ∀ s, s ∈ ps.map (·.2) ↔ Spec.Reached fs E glob dbPath path s := by
  obtain ⟨ps, h1, h2, h3⟩ := live_made hi h hc
  exact ⟨ps, h1, h3, fun s => (look_iff (timeless _ _ _ _) h2 s).trans reached_iff⟩

/-- **C94** (the database folder): through no link does anything in the database folder come to be stored, whatever the link is called and wherever it is. -/
theorem C94_folder (E : Env) (fs : LinkFs) (glob : Path → Bool) (dbPath : Path) (n : Nat) (path : Path) (db db' : Db) (t t' : Nat) (k : Key) (hi : Inv E.H db)
    (h : putLive E (fs.answers E glob dbPath) n path (db, t) = (.ok k, (db', t'))) (hc : NoColl E.H db') (d : List Bytes) (hd : fs.canonicalize dbPath = .ok d) :
    ∃ ns : List KNode, Snap.Stored db' n k ns ∧ ∀ x ∈ ns, x.node.rel ≠ [] → ∃ q, fs.canonicalize (joins path x.node.rel) = .ok q ∧ ¬ d <+: q := by
  obtain ⟨ps, h1, h2, h3⟩ := C94_stored E fs glob dbPath n path db db' t t' k hi h hc
  refine ⟨_, h1, fun x hx hne => ?_⟩
  obtain ⟨y, hy, rfl⟩ := List.mem_map.mp hx
  have hr := (h3 y.2).mp (List.mem_map.mpr ⟨y, hy, rfl⟩)
  rw [(h2 y hy).1] at hne ⊢
  have e : y.2.rel.dropLast ++ [y.2.rel.getLast hne] = y.2.rel := List.dropLast_concat_getLast hne
  obtain ⟨q, q', d', g1, g2, g3, g4, g5, g6, g7⟩ := hr.way y.2.rel.dropLast (y.2.rel.getLast hne) (by rw [e]; exact List.prefix_refl _)
  rw [e] at g4
  rw [hd] at g5
  simp only [Res.ok.injEq] at g5
  exact ⟨q', g4, by rw [g5]; exact g6⟩

/-- **C94** (it ends): links may make directories contain themselves, but the number of links followed in one path is limited: with recursion this deep no traversal is cut short. -/
theorem C94_ends (E : Env) (fs : LinkFs) (hs : fs.Sane) (glob : Path → Bool) (dbPath : Path) (D : Nat) (hD : ∀ e ∈ fs.ents, e.1.length ≤ D) (n : Nat)
    (hn : (fs.limit + 1) * (D + 1) < n) (path : Path) : Halts (putLive E (fs.answers E glob dbPath) n path) := by
  refine halts_links hs hD n path (by omega) fun k q h => ?_
  have hk : k ≤ fs.limit := by
    unfold LinkFs.locate at h
    split at h
    · simp at h
    · split at h
      · simp at h
      · exact lwalk_le fs h
  have : k * (D + 1) ≤ fs.limit * (D + 1) := Nat.mul_le_mul_right _ hk
  rw [Nat.add_mul] at hn
  unfold farness
  omega

/-- **C94** (directories that contain themselves): if following entries and links from a directory to be stored leads back to it, and there are no patterns to exclude it, nothing is stored:
there is no key, as the kernel refuses to follow the links for ever. -/
theorem C94_cycle (E : Env) (fs : LinkFs) (hs : fs.Sane) (dbPath path : Path) (rel r : List Bytes) (hr : r ≠ []) (q : List Bytes)
    (h0 : fs.canonicalize (joins path rel) = .ok q) (h1 : Spec.Reached fs E (fun _ => false) dbPath path ⟨rel ++ r, none⟩) (h2 : fs.canonicalize (joins path (rel ++ r)) = .ok q)
    (n : Nat) (s s' : Db × Nat) (k : Key) : putLive E (fs.answers E (fun _ => false) dbPath) n path s ≠ (.ok k, s') := by
  intro h
  obtain ⟨L, l1, _⟩ := live_frozen (lproper hs E _ dbPath) (db := s.1) (t := s.2) (db' := s'.1) (t' := s'.2) h
  obtain ⟨g1, _⟩ := reached_iff.mpr h1
  have hsplit : Goes (fs.answers E (fun _ => false) dbPath) path rel ∧ Goes (fs.answers E (fun _ => false) dbPath) (joins path rel) r := by
    refine ⟨fun a m ha => g1 a m (ha.trans (List.prefix_append _ _)), fun a m ha => ?_⟩
    have := g1 (rel ++ a) m (by rw [List.append_assoc]; exact (List.prefix_append_right_inj rel).mpr ha)
    rw [List.append_assoc, joins_append, joins_append] at this
    exact this
  obtain ⟨k0, _, j1, _⟩ := lcanon_iff.mp h0
  obtain ⟨k1, _, j2, _⟩ := lcanon_iff.mp h2
  rw [joins_append] at j2
  exact cycle_fails hs hr hsplit.2 j1 j2 k0 _ j1 (lookOk_goes (timeless _ _ _ _) ⟨_, _, _, _, l1⟩ hsplit.1)

/-- **C94** (the commands): a successful `insert` or `commit` of a directory with links does what it does on a tree without any, which has just the directories and files reached through the
links: everything proved about repositories made from such trees holds. -/
theorem C94_tree (X : Ctx) (fs : LinkFs) (hs : fs.Sane) (w : World) (hw : w.fs.Sane) (R : Repo) (q : List Bytes) (ho : Opens X w R q) (hroot : 2 ≤ q.length)
    (cmd : Command) (path : Path) (hc : cmd.stores R = some path) (after : Fs) (h : (runLive X (fs.answers X.E X.glob R.folder) R q cmd after w).1 = .success) :
    ∃ (X' : Ctx) (fs' : Fs) (R' : Repo) (p : Path) (seen : List Seen), (∀ s, s ∈ seen ↔ Spec.Reached fs X.E X.glob R.folder path s) ∧ Spec.Caught seen fs' X'.E.rd p ∧
      X'.E.H = X.E.H ∧ X'.E.table = X.E.table ∧ X'.depth = X.depth ∧ fs'.Wf ∧ Opens X' { w with fs := fs' } R' q ∧
      mainRun X' (cmd.aim p) { w with fs := fs' } =
        ((runLive X (fs.answers X.E X.glob R.folder) R q cmd after w).1, (runLive X (fs.answers X.E X.glob R.folder) R q cmd after w).2.1,
          { (runLive X (fs.answers X.E X.glob R.folder) R q cmd after w).2.2 with fs := fs' }) := by
  obtain ⟨X', fs', R', p, seen, t, h1, h2, h3⟩ := C93_frozen X _ (lproper hs X.E X.glob R.folder) w hw R q ho hroot cmd path hc after h
  exact ⟨X', fs', R', p, seen, fun s => (look_iff (timeless _ _ _ _) h1 s).trans reached_iff, h2, h3⟩

end Snap.Props
