import Verif.Model.Live
import Verif.Props.Find
import Verif.Props.Types
import Verif.Props.Progress
/-! Property C93: `insert` and `commit` while other processes change the files. -/
namespace Snap.Props
open Snap
set_option linter.unusedSectionVars false
variable [Serde] [LawfulSerde]

namespace Spec

/-- What one visit found at a place: a directory, or a file of this length from which these reads came. -/
structure Seen where
  rel : List Bytes
  what : Option (Nat × List ReadEv)
  deriving DecidableEq, Repr

def Seen.under (n : Bytes) (s : Seen) : Seen := { s with rel := n :: s.rel }

/-- Asking the next question. -/
def tick {α} (f : Nat → Res α) : SM Nat α := fun t => (f t, t + 1)

/-- Visiting the entries of a listing that are to be taken. -/
def lookEntries (A : Answers) (rec : Path → SM Nat (List Seen)) (path : Path) : List (Option Bytes) → SM Nat (List Seen)
  | [] => pure []
  | none :: _ => SM.throw .io
  | some n :: ns => do
    if ← tick (A.take · (Path.join path n)) then do
      let l ← rec (Path.join path n)
      let r ← lookEntries A rec path ns
      pure (l.map (Seen.under n) ++ r)
    else lookEntries A rec path ns

/-- One visit of a directory, each thing in it looked at once: no database. -/
def look (A : Answers) : Nat → Path → SM Nat (List Seen)
  | 0, _ => SM.lift .fuel
  | n + 1, path => do
    match ← tick (A.stat · path) with
    | .dir => do
      let names ← tick (A.list · path)
      let r ← lookEntries A (look A n) path names
      pure (⟨[], none⟩ :: r)
    | .file len => do
      let evs ← tick (A.read · path)
      pure [⟨[], some (len, evs)⟩]
    | .other => SM.panic

/-- What is stored of a file, given the reads: all that they delivered, except for the loss of C24. -/
def KeptOf (table : UInt8 → BitVec 64) : Option Bytes → Option (Nat × List ReadEv) → Prop
  | none, none => True
  | some kept, some (_, evs) => ∃ lost, Snap.Spec.delivered evs = lost ++ kept ∧ (Snap.Spec.Spilled ((chunks table evs).1.map Prod.snd) → 32768 ≤ lost.length) ∧
      (¬ Snap.Spec.Spilled ((chunks table evs).1.map Prod.snd) → lost = [])
  | _, _ => False

/-- Directory listings have proper names, none twice. -/
def Proper (A : Answers) : Prop := ∀ t p l, A.list t p = .ok l → (∀ n, some n ∈ l → okName n) ∧ (l.filterMap id).Nodup

/-- The answers when `hist t` is the tree at the time of question `t`. -/
def during (E : Env) (hist : Nat → Fs) (filter : Filter) : Answers where
  stat t p := ((hist t).metadata p).bind fun
    | .dir => .ok .dir
    | .file c _ => .ok (.file c.length)
    | _ => .ok .other
  list t p := ((hist t).readDir p).bind fun l => .ok (l.map some)
  take t p := filter (hist t) p
  read t p := ((hist t).metadata p).bind fun
    | .file c _ => .ok (E.rd p c)
    | _ => .err .io

/-- The answers of a tree that stands still. -/
def still (E : Env) (fs : Fs) (filter : Filter) : Answers := during E (fun _ => fs) filter

/-- The tree at `p` has just what was seen: the directories, and files of these lengths from which these reads come. -/
structure Caught (seen : List Seen) (fs : Fs) (rd : Path → Bytes → List ReadEv) (p : Path) : Prop where
  dirs : ∀ rel, fs.at (loc fs.cwd p ++ rel) = some .dir ↔ ⟨rel, none⟩ ∈ seen
  files : ∀ rel len evs, ⟨rel, some (len, evs)⟩ ∈ seen ↔ ∃ c md, fs.at (loc fs.cwd p ++ rel) = some (.file c md) ∧ c.length = len ∧ rd (joins p rel) c = evs
  only : ∀ rel, fs.at (loc fs.cwd p ++ rel) ≠ some .special ∧ fs.at (loc fs.cwd p ++ rel) ≠ some .broken

end Spec

open Spec (Seen look lookEntries tick)

theorem ask_apply {α} (f : Nat → Res α) (db : Db) (t : Nat) : ask f (db, t) = (f t, (db, t + 1)) := rfl
theorem fst_apply {α} (x : M α) (db : Db) (t : Nat) : SM.fst (τ := Nat) x (db, t) = ((x db).1, ((x db).2, t)) := rfl
theorem tick_apply {α} (f : Nat → Res α) (t : Nat) : tick f t = (f t, t + 1) := rfl

theorem putRead_eq (E : Env) (path : Path) (c : Bytes) : putFile E path c = putRead E (E.rd path c) c.length := rfl

/-! ### A tree that stands still -/

theorem putEntriesLive_still {E : Env} {fs : Fs} {filter : Filter} {n : Nat}
    (ih : ∀ path db t, ∃ t', putLive E (Spec.still E fs filter) n path (db, t) = ((putFsItem E fs filter n path db).1, ((putFsItem E fs filter n path db).2, t')))
    (path : Path) (l : List Bytes) (db : Db) (t : Nat) :
    ∃ t', putEntriesLive (Spec.still E fs filter) (putLive E (Spec.still E fs filter) n) path (l.map some) (db, t) =
      ((putEntries fs filter (putFsItem E fs filter n) path l db).1, ((putEntries fs filter (putFsItem E fs filter n) path l db).2, t')) := by
  induction l generalizing db t with
  | nil => exact ⟨t, rfl⟩
  | cons x l ihl =>
    simp only [List.map_cons, putEntriesLive, putEntries, SM.bind_apply, ask_apply, SM.lift_apply]
    have hta : (Spec.still E fs filter).take t (Path.join path x) = filter fs (Path.join path x) := rfl
    rw [hta]
    cases filter fs (Path.join path x) with
    | ok b =>
      cases b with
      | false => exact ihl db (t + 1)
      | true =>
        obtain ⟨t1, h1⟩ := ih (Path.join path x) db (t + 1)
        simp only [if_true, SM.bind_apply, h1]
        cases hp : putFsItem E fs filter n (Path.join path x) db with
        | mk r d =>
          cases r with
          | ok k =>
            obtain ⟨t2, h2⟩ := ihl d t1
            simp only [h2]
            cases hq : putEntries fs filter (putFsItem E fs filter n) path l d with
            | mk r' d' => cases r' <;> exact ⟨t2, rfl⟩
          | err e => exact ⟨t1, rfl⟩
          | panic => exact ⟨t1, rfl⟩
          | fuel => exact ⟨t1, rfl⟩
    | err e => exact ⟨t + 1, rfl⟩
    | panic => exact ⟨t + 1, rfl⟩
    | fuel => exact ⟨t + 1, rfl⟩

theorem putLive_still (E : Env) (fs : Fs) (filter : Filter) (n : Nat) (path : Path) (db : Db) (t : Nat) :
    ∃ t', putLive E (Spec.still E fs filter) n path (db, t) = ((putFsItem E fs filter n path db).1, ((putFsItem E fs filter n path db).2, t')) := by
  induction n generalizing path db t with
  | zero => exact ⟨t, rfl⟩
  | succ n ih =>
    simp only [putLive, putFsItem, SM.bind_apply, ask_apply, SM.lift_apply]
    have hst : (Spec.still E fs filter).stat t path = (fs.metadata path).bind fun
        | .dir => .ok .dir
        | .file c _ => .ok (.file c.length)
        | _ => .ok .other := rfl
    rw [hst]
    cases hm : fs.metadata path with
    | ok e =>
      cases e with
      | dir =>
        simp only [Res.bind, SM.bind_apply, ask_apply, SM.lift_apply]
        have hli : (Spec.still E fs filter).list (t + 1) path = (fs.readDir path).bind fun l => .ok (l.map some) := rfl
        rw [hli]
        cases fs.readDir path with
        | ok l =>
          obtain ⟨t1, h1⟩ := putEntriesLive_still ih path l db (t + 2)
          simp only [Res.bind, h1]
          cases hq : putEntries fs filter (putFsItem E fs filter n) path l db with
          | mk r d => cases r <;> exact ⟨t1, rfl⟩
        | err e => exact ⟨_, rfl⟩
        | panic => exact ⟨_, rfl⟩
        | fuel => exact ⟨_, rfl⟩
      | file c md =>
        simp only [Res.bind, SM.bind_apply, ask_apply]
        have hre : (Spec.still E fs filter).read (t + 1) path = (fs.metadata path).bind fun
            | .file c _ => .ok (E.rd path c)
            | _ => .err .io := rfl
        rw [hre, hm]
        exact ⟨t + 2, rfl⟩
      | special => exact ⟨_, rfl⟩
      | broken => exact ⟨_, rfl⟩
    | err e => exact ⟨_, rfl⟩
    | panic => exact ⟨_, rfl⟩
    | fuel => exact ⟨_, rfl⟩

/-! ### What is stored is what was read -/

/-- Only rows are added. -/
def Growing {α} (H : Bytes → Key) (x : SM (Db × Nat) α) : Prop := ∀ s, Grow H s.1 (x s).2.1

theorem growing_bind {α β} {H : Bytes → Key} {x : SM (Db × Nat) α} {f : α → SM (Db × Nat) β} (hx : Growing H x) (hf : ∀ a, Growing H (f a)) : Growing H (x >>= f) := by
  intro s
  have h := hx s
  rw [SM.bind_apply]
  cases hr : x s with
  | mk r s' =>
    rw [hr] at h
    cases r with
    | ok a => exact h.trans (hf a s')
    | err e => exact h
    | panic => exact h
    | fuel => exact h

theorem growing_ask {α} (H : Bytes → Key) (f : Nat → Res α) : Growing H (ask f) := fun _ => Grow.refl _ _
theorem growing_pure {α} (H : Bytes → Key) (a : α) : Growing H (pure a) := fun _ => Grow.refl _ _
theorem growing_fst {α} {H : Bytes → Key} {x : M α} (h : IsPuts H x) : Growing H (SM.fst x) := fun s => h.grow s.1

theorem isPuts_putRead (E : Env) (evs : List ReadEv) (len : Nat) : IsPuts E.H (putRead E evs len) :=
  isPuts_bind (isPuts_putData _ _ _) fun _ => isPuts_bind (isPuts_lift _ _) fun _ => isPuts_putObj _ _

theorem growing_entries {H : Bytes → Key} (A : Answers) {rec : Path → SM (Db × Nat) Key} (h : ∀ p, Growing H (rec p)) (path : Path) (l : List (Option Bytes)) :
    Growing H (putEntriesLive A rec path l) := by
  induction l with
  | nil => exact growing_pure H _
  | cons x l ih =>
    cases x with
    | none => exact fun _ => Grow.refl _ _
    | some n =>
      refine growing_bind (growing_ask H _) fun b => ?_
      cases b with
      | true => exact growing_bind (h _) fun k => growing_bind ih fun r => growing_pure H _
      | false => exact ih

theorem growing_live (E : Env) (A : Answers) (n : Nat) (path : Path) : Growing E.H (putLive E A n path) := by
  induction n generalizing path with
  | zero => exact fun _ => Grow.refl _ _
  | succ n ih =>
    refine growing_bind (growing_ask _ _) fun e => ?_
    cases e with
    | dir =>
      exact growing_bind (growing_ask _ _) fun names => growing_bind (growing_entries A ih path names) fun r =>
        growing_fst (isPuts_bind (isPuts_lift _ _) fun o => isPuts_putObj _ _)
    | file len => exact growing_bind (growing_ask _ _) fun evs => growing_fst (isPuts_putRead E evs len)
    | other => exact fun _ => Grow.refl _ _

theorem fst_ok {α} {x : M α} {db : Db} {t : Nat} {a : α} {s : Db × Nat} (h : SM.fst (τ := Nat) x (db, t) = (.ok a, s)) : x db = (.ok a, s.1) ∧ s.2 = t := by
  rw [fst_apply, Prod.mk.injEq] at h
  obtain ⟨h1, h2⟩ := h
  subst h2
  exact ⟨by rw [← h1], rfl⟩

theorem ask_ok {α} {f : Nat → Res α} {db : Db} {t : Nat} {a : α} {s : Db × Nat} (h : ask f (db, t) = (.ok a, s)) : f t = .ok a ∧ s = (db, t + 1) := by
  rw [ask_apply, Prod.mk.injEq] at h
  exact ⟨h.1, h.2.symm⟩

theorem putRead_ok {E : Env} {evs : List ReadEv} {len : Nat} {db db' : Db} {k : Key} (hi : Inv E.H db) (hp : putRead E evs len db = (.ok k, db')) (hc : NoColl E.H db') :
    ∃ ck m c', getItem db' k = .ok ⟨len, .file, [], [ck]⟩ ∧ m ≤ 5 ∧ Den db' m ck c' ∧ Spec.KeptOf E.table (some c') (some (len, evs)) := by
  unfold putRead at hp
  obtain ⟨ck, db1, h1, h2⟩ := bind_ok hp
  obtain ⟨o, db2, h3, h4⟩ := bind_ok h2
  simp only [SM.lift_apply, Prod.mk.injEq] at h3
  obtain ⟨h3, rfl⟩ := h3
  have g1 := (isPuts_putData E.table E.H evs).grow db
  rw [h1] at g1
  have g2 := (isPuts_putObj E.H o).grow db1
  rw [h4] at g2
  obtain ⟨m, hm, lost, kept, hd, hden, h5, h6⟩ := putData_ok h1 hi (hc.mono g2.hashed)
  exact ⟨ck, m, kept, putItem_getItem (g1.inv hi) h3 h4 hc, hm, hden.mono g2.data, lost, hd, h5, h6⟩

/-- A stored node and what was seen in its place. -/
abbrev Twin := KNode × Seen
def Twin.under (n : Bytes) (x : Twin) : Twin := (x.1.under n, x.2.under n)

/-- The pairs are of the same place, and the file's reads are stored. -/
def Twinned (table : UInt8 → BitVec 64) (ps : List Twin) : Prop := ∀ x ∈ ps, x.1.node.rel = x.2.rel ∧ Spec.KeptOf table x.1.node.content x.2.what

theorem entries_made {E : Env} {A : Answers} {n : Nat}
    (ih : ∀ {path : Path} {db db' : Db} {t t' : Nat} {k : Key}, Inv E.H db → putLive E A n path (db, t) = (.ok k, (db', t')) → NoColl E.H db' →
      ∃ ps : List Twin, Snap.Stored db' n k (ps.map (·.1)) ∧ look A n path t = (.ok (ps.map (·.2)), t') ∧ Twinned E.table ps)
    {path : Path} {l : List (Option Bytes)} {db db' : Db} {t t' : Nat} {r : List (Bytes × Key)} (hi : Inv E.H db)
    (hp : putEntriesLive A (putLive E A n) path l (db, t) = (.ok r, (db', t'))) (hc : NoColl E.H db') :
    ∃ es : List (Bytes × Key × List Twin), r = es.map (fun e => (e.1, e.2.1)) ∧
      lookEntries A (look A n) path l t = (.ok (es.flatMap fun e => (e.2.2.map (·.2)).map (Seen.under e.1)), t') ∧
      ∀ e ∈ es, Snap.Stored db' n e.2.1 (e.2.2.map (·.1)) ∧ Twinned E.table e.2.2 := by
  induction l generalizing db t r with
  | nil =>
    simp [putEntriesLive] at hp
    obtain ⟨rfl, rfl, rfl⟩ := hp
    exact ⟨[], rfl, rfl, by simp⟩
  | cons x l ihl =>
    cases x with
    | none => simp [putEntriesLive, SM.throw] at hp
    | some x =>
      unfold putEntriesLive at hp
      obtain ⟨b, s1, h1, h2⟩ := bind_ok hp
      obtain ⟨h1', rfl⟩ := ask_ok h1
      cases b with
      | true =>
        simp only [if_true] at h2
        obtain ⟨k, ⟨db2, t2⟩, h3, h4⟩ := bind_ok h2
        obtain ⟨r', ⟨db3, t3⟩, h5, h6⟩ := bind_ok h4
        simp at h6
        obtain ⟨rfl, rfl, rfl⟩ := h6
        have g1 := growing_live E A n (Path.join path x) (db, t + 1)
        rw [h3] at g1
        have g2 := growing_entries A (growing_live E A n) path l (db2, t2)
        rw [h5] at g2
        obtain ⟨ps, s1, s2, s3⟩ := ih hi h3 (hc.mono g2.hashed)
        obtain ⟨es, e1, e2, e3⟩ := ihl (g1.inv hi) h5
        refine ⟨(x, k, ps) :: es, by simp [e1], ?_, ?_⟩
        · simp only [lookEntries, SM.bind_apply, tick_apply, h1', if_true, s2, e2, SM.pure_apply, List.flatMap_cons]
        · intro e he
          rcases List.mem_cons.mp he with rfl | he
          · exact ⟨s1.mono g2.data, s3⟩
          · exact e3 e he
      | false =>
        simp only [Bool.false_eq_true, if_false] at h2
        obtain ⟨es, e1, e2, e3⟩ := ihl hi h2
        refine ⟨es, e1, ?_, e3⟩
        simp only [lookEntries, SM.bind_apply, tick_apply, h1', Bool.false_eq_true, if_false, e2]

theorem live_made {E : Env} {A : Answers} {n : Nat} {path : Path} {db db' : Db} {t t' : Nat} {k : Key} (hi : Inv E.H db)
    (hp : putLive E A n path (db, t) = (.ok k, (db', t'))) (hc : NoColl E.H db') :
    ∃ ps : List Twin, Snap.Stored db' n k (ps.map (·.1)) ∧ look A n path t = (.ok (ps.map (·.2)), t') ∧ Twinned E.table ps := by
  induction n generalizing path db db' t t' k with
  | zero => simp [putLive] at hp
  | succ n ih =>
    unfold putLive at hp
    obtain ⟨e, s1, h1, h2⟩ := bind_ok hp
    obtain ⟨h1', rfl⟩ := ask_ok h1
    cases e with
    | dir =>
      obtain ⟨all, s2, h3, h4⟩ := bind_ok h2
      obtain ⟨h3', rfl⟩ := ask_ok h3
      obtain ⟨r, ⟨db3, t3⟩, h5, h6⟩ := bind_ok h4
      obtain ⟨h6', e6⟩ := fst_ok h6
      simp only at h6' e6
      subst e6
      obtain ⟨o, db4, h7, h8⟩ := bind_ok h6'
      simp only [SM.lift_apply, Prod.mk.injEq] at h7
      obtain ⟨h7, rfl⟩ := h7
      have g1 := growing_entries A (growing_live E A n) path all (db, t + 1 + 1)
      rw [h5] at g1
      have g2 := (isPuts_putObj E.H o).grow db3
      rw [h8] at g2
      obtain ⟨es, rfl, e2, e3⟩ := entries_made ih hi h5 (hc.mono g2.hashed)
      refine ⟨(⟨⟨[], none⟩, k⟩, ⟨[], none⟩) :: es.flatMap (fun e => e.2.2.map (Twin.under e.1)),
        Or.inr ⟨es.length, es.map (fun e => (e.1, e.2.1, e.2.2.map (·.1))), ?_, ?_, ?_⟩, ?_, ?_⟩
      · have := putItem_getItem (g1.inv hi) h7 h8 hc
        simpa [Function.comp_def] using this
      · simp [List.map_flatMap, List.flatMap_map, Function.comp_def, Twin.under]
      · intro e he
        obtain ⟨e', he', rfl⟩ := List.mem_map.mp he
        exact (e3 e' he').1.mono g2.data
      · simp only [look, SM.bind_apply, tick_apply, h1', h3', e2, SM.pure_apply]
        simp [List.map_flatMap, Function.comp_def, Twin.under]
      · intro x hx
        rcases List.mem_cons.mp hx with rfl | hx
        · exact ⟨rfl, trivial⟩
        · obtain ⟨e, he, hx⟩ := List.mem_flatMap.mp hx
          obtain ⟨y, hy, rfl⟩ := List.mem_map.mp hx
          obtain ⟨a1, a2⟩ := (e3 e he).2 y hy
          exact ⟨by simp [Twin.under, Seen.under, a1], a2⟩
    | file len =>
      obtain ⟨evs, s2, h3, h4⟩ := bind_ok h2
      obtain ⟨h3', rfl⟩ := ask_ok h3
      obtain ⟨h4', e4⟩ := fst_ok h4
      simp only at h4' e4
      subst e4
      obtain ⟨ck, m, c', a1, a2, a3, a4⟩ := putRead_ok hi h4' hc
      refine ⟨[(⟨⟨[], some c'⟩, k⟩, ⟨[], some (len, evs)⟩)], Or.inl ⟨_, _, ck, c', m, a1, a2, a3, rfl⟩, ?_, ?_⟩
      · simp only [look, SM.bind_apply, tick_apply, h1', h3', SM.pure_apply, List.map_cons, List.map_nil]
      · intro x hx
        simp at hx
        subst hx
        exact ⟨rfl, a4⟩
    | other => simp at h2

/-! ### The same from a tree that stands still -/

/-- What a visit of a tree returns: the root first, each place once, below directories. -/
structure Treeish (L : List Seen) : Prop where
  head : ∃ hd tl, L = hd :: tl ∧ hd.rel = [] ∧ ∀ s ∈ tl, s.rel ≠ []
  nodup : (L.map (·.rel)).Nodup
  names : ∀ s ∈ L, ∀ n ∈ s.rel, okName n
  parents : ∀ s ∈ L, ∀ r n, s.rel = r ++ [n] → ⟨r, none⟩ ∈ L

theorem treeish_file (w : Option (Nat × List ReadEv)) : Treeish [⟨[], w⟩] :=
  ⟨⟨_, [], rfl, rfl, by simp⟩, by simp, by simp, fun s hs r n h => by simp at hs; subst hs; simp at h⟩

theorem mem_kids {es : List (Bytes × List Seen)} {s : Seen} :
    s ∈ es.flatMap (fun e => e.2.map (Seen.under e.1)) ↔ ∃ e ∈ es, ∃ x ∈ e.2, s = x.under e.1 := by
  simp only [List.mem_flatMap, List.mem_map]
  exact ⟨fun ⟨e, he, x, hx, h⟩ => ⟨e, he, x, hx, h.symm⟩, fun ⟨e, he, x, hx, h⟩ => ⟨e, he, x, hx, h.symm⟩⟩

theorem treeish_dir {es : List (Bytes × List Seen)} (hn : (es.map (·.1)).Nodup) (ho : ∀ e ∈ es, okName e.1) (ht : ∀ e ∈ es, Treeish e.2) :
    Treeish (⟨[], none⟩ :: es.flatMap (fun e => e.2.map (Seen.under e.1))) := by
  refine ⟨⟨_, _, rfl, rfl, ?_⟩, ?_, ?_, ?_⟩
  · intro s hs
    obtain ⟨e, _, x, _, rfl⟩ := mem_kids.mp hs
    simp [Seen.under]
  · rw [List.map_cons, List.nodup_cons]
    refine ⟨?_, ?_⟩
    · intro hm
      obtain ⟨s, hs, h0⟩ := List.mem_map.mp hm
      obtain ⟨e, _, x, _, rfl⟩ := mem_kids.mp hs
      simp [Seen.under] at h0
    · induction es with
      | nil => simp
      | cons e es ih =>
        rw [List.map_cons, List.nodup_cons] at hn
        rw [List.flatMap_cons, List.map_append, List.nodup_append]
        refine ⟨?_, ih hn.2 (fun x hx => ho x (by simp [hx])) fun x hx => ht x (by simp [hx]), ?_⟩
        · have := (ht e (by simp)).nodup
          rw [List.map_map]
          have e1 : ((fun x : Seen => x.rel) ∘ Seen.under e.1) = (fun r => e.1 :: r) ∘ (fun x : Seen => x.rel) := rfl
          rw [e1, ← List.map_map]
          exact List.Pairwise.map _ (fun a b hab h => hab (List.cons.inj h).2) this
        · intro a ha b hb hab
          subst hab
          obtain ⟨x, hx, rfl⟩ := List.mem_map.mp ha
          obtain ⟨x', _, rfl⟩ := List.mem_map.mp hx
          obtain ⟨y, hy, hy'⟩ := List.mem_map.mp hb
          obtain ⟨e', he', y', _, rfl⟩ := mem_kids.mp hy
          simp only [Seen.under, List.cons.injEq] at hy'
          exact hn.1 (List.mem_map.mpr ⟨e', he', hy'.1⟩)
  · intro s hs n hm
    rcases List.mem_cons.mp hs with rfl | hs
    · simp at hm
    · obtain ⟨e, he, x, hx, rfl⟩ := mem_kids.mp hs
      rcases List.mem_cons.mp hm with rfl | hm
      · exact ho e he
      · exact (ht e he).names x hx n hm
  · intro s hs r n h
    rcases List.mem_cons.mp hs with rfl | hs
    · simp at h
    · obtain ⟨e, he, x, hx, rfl⟩ := mem_kids.mp hs
      simp only [Seen.under] at h
      cases r with
      | nil => simp
      | cons m r =>
        simp only [List.cons_append, List.cons.injEq] at h
        obtain ⟨rfl, h⟩ := h
        exact List.mem_cons_of_mem _ (mem_kids.mpr ⟨e, he, _, (ht e he).parents x hx r n h, rfl⟩)

/-- A frozen tree: places with what was seen there. -/
abbrev Still := List (List Bytes × Option (Nat × List ReadEv))

def place (q : List Bytes) (s : Seen) : List Bytes × Option (Nat × List ReadEv) := (q ++ s.rel, s.what)

/-- At and below `q` lies what was seen. -/
def Lies (F : Still) (q : List Bytes) (L : List Seen) : Prop := F.filter (fun e => q.isPrefixOf e.1) = L.map (place q)

theorem find_filter {α} {p r : α → Bool} (h : ∀ x, r x = true → p x = true) (l : List α) : (l.filter p).find? r = l.find? r := by
  induction l with
  | nil => rfl
  | cons x l ih =>
    rw [List.filter_cons]
    cases hp : p x with
    | true => simp only [if_true, List.find?_cons]; cases r x <;> simp [ih]
    | false =>
      have : r x = false := by
        cases hr : r x with
        | false => rfl
        | true => rw [h x hr] at hp; simp at hp
      simp [List.find?_cons, this, ih]

theorem filterMap_filter {α β} {p : α → Bool} {f : α → Option β} (h : ∀ x, f x ≠ none → p x = true) (l : List α) : (l.filter p).filterMap f = l.filterMap f := by
  induction l with
  | nil => rfl
  | cons x l ih =>
    rw [List.filter_cons]
    cases hp : p x with
    | true => simp only [if_true, List.filterMap_cons]; cases f x <;> simp [ih]
    | false =>
      have : f x = none := by
        cases hf : f x with
        | none => rfl
        | some b => have := h x (by rw [hf]; simp); rw [hp] at this; simp at this
      simp [this, ih]

theorem lies_find {F : Still} {q : List Bytes} {hd : Seen} {tl : List Seen} (h : Lies F q (hd :: tl)) (h0 : hd.rel = []) : F.find? (·.1 == q) = some (q, hd.what) := by
  rw [← find_filter (p := fun e => q.isPrefixOf e.1) (fun x hx => by simp at hx; subst hx; simp), h, List.map_cons, List.find?_cons]
  simp [place, h0]

/-- The names directly below. -/
def nameAt (q : List Bytes) (e : List Bytes × Option (Nat × List ReadEv)) : Option Bytes := if e.1 ≠ [] ∧ e.1.dropLast = q then e.1.getLast? else none

theorem nameAt_place (q : List Bytes) (n : Bytes) (s : Seen) : nameAt q (place q (s.under n)) = if s.rel = [] then some n else none := by
  have key : ∀ r : List Bytes, (q ++ n :: r).dropLast = q ↔ r = [] := by
    intro r
    constructor
    · intro h
      have := congrArg List.length h
      simp at this
      exact this
    · rintro rfl; simp
  unfold nameAt place Seen.under
  simp only
  by_cases h : s.rel = []
  · rw [if_pos h, if_pos ⟨by simp, (key _).mpr h⟩, h]; simp
  · rw [if_neg h, if_neg fun h' => h ((key _).mp h'.2)]

theorem lies_names {F : Still} {q : List Bytes} {es : List (Bytes × List Seen)} {w : Option (Nat × List ReadEv)}
    (h : Lies F q (⟨[], w⟩ :: es.flatMap (fun e => e.2.map (Seen.under e.1)))) (ht : ∀ e ∈ es, Treeish e.2) : F.filterMap (nameAt q) = es.map (·.1) := by
  rw [← filterMap_filter (p := fun e => q.isPrefixOf e.1), h]
  · rw [List.map_cons, List.filterMap_cons]
    have e0 : nameAt q (place q ⟨[], w⟩) = none := by
      unfold nameAt place
      simp only [List.append_nil]
      rw [if_neg]
      rintro ⟨h1, h2⟩
      have := congrArg List.length h2
      rw [List.length_dropLast] at this
      have := List.length_pos_iff.mpr h1
      omega
    rw [e0]
    simp only
    clear h e0
    induction es with
    | nil => rfl
    | cons e es ih =>
      rw [List.flatMap_cons, List.map_append, List.filterMap_append, ih fun x hx => ht x (by simp [hx])]
      obtain ⟨hd, tl, e1, e2, e3⟩ := (ht e (by simp)).head
      rw [e1, List.map_cons, List.map_cons, List.filterMap_cons, nameAt_place, if_pos e2]
      have : ((tl.map (Seen.under e.1)).map (place q)).filterMap (nameAt q) = [] := by
        rw [List.filterMap_eq_nil_iff]
        intro x hx
        obtain ⟨y, hy, rfl⟩ := List.mem_map.mp hx
        obtain ⟨y', hy', rfl⟩ := List.mem_map.mp hy
        rw [nameAt_place, if_neg (e3 y' hy')]
      rw [this]
      rfl
  · intro x hx
    unfold nameAt at hx
    split at hx
    · rename_i h'
      rw [List.isPrefixOf_iff_prefix, ← h'.2]
      exact List.dropLast_prefix _
    · exact (hx rfl).elim

theorem lies_kid {F : Still} {q : List Bytes} {es : List (Bytes × List Seen)} {w : Option (Nat × List ReadEv)}
    (h : Lies F q (⟨[], w⟩ :: es.flatMap (fun e => e.2.map (Seen.under e.1)))) (hn : (es.map (·.1)).Nodup) {e : Bytes × List Seen} (he : e ∈ es) :
    Lies F (q ++ [e.1]) e.2 := by
  unfold Lies at h ⊢
  have e0 : F.filter (fun x => (q ++ [e.1]).isPrefixOf x.1) = (F.filter (fun x => q.isPrefixOf x.1)).filter (fun x => (q ++ [e.1]).isPrefixOf x.1) := by
    rw [List.filter_filter]
    apply List.filter_congr
    intro x _
    cases hx : (q ++ [e.1]).isPrefixOf x.1 with
    | false => rfl
    | true =>
      rw [List.isPrefixOf_iff_prefix] at hx
      have : q.isPrefixOf x.1 = true := List.isPrefixOf_iff_prefix.mpr ((List.prefix_append q [e.1]).trans hx)
      rw [this]
      rfl
  rw [e0, h, List.map_cons, List.filter_cons]
  have hpl : ∀ (n : Bytes) (x : Seen), (q ++ [e.1]).isPrefixOf (place q (x.under n)).1 = (n == e.1) := by
    intro n x
    rw [Bool.eq_iff_iff, List.isPrefixOf_iff_prefix]
    unfold place Seen.under
    simp only [List.prefix_append_right_inj, List.cons_prefix_cons, List.nil_prefix, and_true, beq_iff_eq]
    exact eq_comm
  have h1 : (q ++ [e.1]).isPrefixOf (place q ⟨[], w⟩).1 = false := by
    rw [Bool.eq_false_iff, ne_eq, List.isPrefixOf_iff_prefix]
    intro hp
    have := hp.length_le
    simp [place] at this
    omega
  rw [h1]
  simp only [Bool.false_eq_true, if_false]
  clear h e0 h1
  induction es with
  | nil => simp at he
  | cons a es ih =>
    rw [List.map_cons, List.nodup_cons] at hn
    rw [List.flatMap_cons, List.map_append, List.filter_append]
    have hall : ∀ l : List Seen, ∀ n, ((l.map (Seen.under n)).map (place q)).filter (fun x => (q ++ [e.1]).isPrefixOf x.1) = if n = e.1 then l.map (place (q ++ [n])) else [] := by
      intro l n
      split
      · rename_i hne
        rw [List.filter_eq_self.mpr]
        · rw [List.map_map]
          apply List.map_congr_left
          intro x _
          simp [place, Seen.under]
        · intro x hx
          obtain ⟨y, hy, rfl⟩ := List.mem_map.mp hx
          obtain ⟨y', _, rfl⟩ := List.mem_map.mp hy
          rw [hpl]
          simp [hne]
      · rename_i hne
        rw [List.filter_eq_nil_iff]
        intro x hx
        obtain ⟨y, hy, rfl⟩ := List.mem_map.mp hx
        obtain ⟨y', _, rfl⟩ := List.mem_map.mp hy
        rw [hpl]
        simp [hne]
    rcases List.mem_cons.mp he with rfl | he'
    · rw [hall, if_pos rfl]
      have : ((es.flatMap fun e => e.2.map (Seen.under e.1)).map (place q)).filter (fun x => (q ++ [e.1]).isPrefixOf x.1) = [] := by
        rw [List.filter_eq_nil_iff]
        intro x hx
        obtain ⟨y, hy, rfl⟩ := List.mem_map.mp hx
        obtain ⟨b, hb, y', _, rfl⟩ := mem_kids.mp hy
        rw [hpl]
        simp only [beq_iff_eq]
        intro hbe
        exact hn.1 (List.mem_map.mpr ⟨b, hb, hbe⟩)
      rw [this, List.append_nil]
    · rw [hall, if_neg, ih hn.2 he', List.nil_append]
      intro hae
      exact hn.1 (List.mem_map.mpr ⟨e, he', hae.symm⟩)

def entOf : Option (Nat × List ReadEv) → Ent
  | none => .dir
  | some (len, _) => .file (List.replicate len 0) ⟨0#64, 0#64⟩

def evsOf : Option (List Bytes × Option (Nat × List ReadEv)) → List ReadEv
  | some (_, some (_, evs)) => evs
  | _ => []

/-- A file system that shows the frozen tree below `z`. -/
structure Mirror (fs : Fs) (E : Env) (filter : Filter) (F : Still) (z : Bytes) : Prop where
  at_ : ∀ q, [z] <+: q → fs.at q = (F.find? (·.1 == q)).map fun e => entOf e.2
  names : ∀ q, [z] <+: q → fs.names q = F.filterMap (nameAt q)
  rd : ∀ p c, E.rd p c = evsOf (F.find? (·.1 == loc fs.cwd p))
  take : ∀ P n, okName n → fs.locate P = .ok (loc fs.cwd P) → fs.at (loc fs.cwd P) = some .dir → [z] <+: loc fs.cwd P →
    (∃ w, fs.at (loc fs.cwd P ++ [n]) = some (entOf w)) → filter fs (Path.join P n) = .ok true

/-- A racing visit stores what a visit of the frozen tree stores. -/
def Frozen' (E : Env) (n : Nat) (L : List Seen) (k : Key) (db db' : Db) : Prop :=
  ∀ (fs : Fs) (E' : Env) (filter : Filter) (F : Still) (z : Bytes), E'.H = E.H → E'.table = E.table → Mirror fs E' filter F z →
    ∀ P, fs.locate P = .ok (loc fs.cwd P) → [z] <+: loc fs.cwd P → Lies F (loc fs.cwd P) L → putFsItem E' fs filter n P db = (.ok k, db')

theorem entries_frozen {E : Env} {A : Answers} {n : Nat}
    (ih : ∀ {path : Path} {db db' : Db} {t t' : Nat} {k : Key}, putLive E A n path (db, t) = (.ok k, (db', t')) →
      ∃ L, look A n path t = (.ok L, t') ∧ Treeish L ∧ Frozen' E n L k db db')
    {path : Path} {l : List (Option Bytes)} {db db' : Db} {t t' : Nat} {r : List (Bytes × Key)}
    (hp : putEntriesLive A (putLive E A n) path l (db, t) = (.ok r, (db', t'))) :
    ∃ es : List (Bytes × List Seen), lookEntries A (look A n) path l t = (.ok (es.flatMap fun e => e.2.map (Seen.under e.1)), t') ∧
      (es.map (·.1)).Sublist (l.filterMap id) ∧ (∀ e ∈ es, Treeish e.2) ∧
      ∀ (fs : Fs) (E' : Env) (filter : Filter) (F : Still) (z : Bytes), E'.H = E.H → E'.table = E.table → Mirror fs E' filter F z →
        ∀ P, (∀ e ∈ es, filter fs (Path.join P e.1) = .ok true ∧ fs.locate (Path.join P e.1) = .ok (loc fs.cwd (Path.join P e.1)) ∧
          [z] <+: loc fs.cwd (Path.join P e.1) ∧ Lies F (loc fs.cwd (Path.join P e.1)) e.2) →
          putEntries fs filter (putFsItem E' fs filter n) P (es.map (·.1)) db = (.ok r, db') := by
  induction l generalizing db t r with
  | nil =>
    simp [putEntriesLive] at hp
    obtain ⟨rfl, rfl, rfl⟩ := hp
    exact ⟨[], rfl, List.Sublist.refl _, by simp, fun _ _ _ _ _ _ _ _ _ _ => rfl⟩
  | cons x l ihl =>
    cases x with
    | none => simp [putEntriesLive, SM.throw] at hp
    | some x =>
      unfold putEntriesLive at hp
      obtain ⟨b, s1, h1, h2⟩ := bind_ok hp
      obtain ⟨h1', rfl⟩ := ask_ok h1
      cases b with
      | true =>
        simp only [if_true] at h2
        obtain ⟨k, ⟨db2, t2⟩, h3, h4⟩ := bind_ok h2
        obtain ⟨r', ⟨db3, t3⟩, h5, h6⟩ := bind_ok h4
        simp at h6
        obtain ⟨rfl, rfl, rfl⟩ := h6
        obtain ⟨L, s2, s3, s4⟩ := ih h3
        obtain ⟨es, e1, e2, e3, e4⟩ := ihl h5
        refine ⟨(x, L) :: es, ?_, ?_, ?_, ?_⟩
        · simp only [lookEntries, SM.bind_apply, tick_apply, h1', if_true, s2, e1, SM.pure_apply, List.flatMap_cons]
        · exact e2.cons_cons x
        · intro e he
          rcases List.mem_cons.mp he with rfl | he
          · exact s3
          · exact e3 e he
        · intro fs E' filter F z hH hT hM P hP
          obtain ⟨p1, p2, p3, p4⟩ := hP (x, L) (by simp)
          have q1 := s4 fs E' filter F z hH hT hM _ p2 p3 p4
          have q2 := e4 fs E' filter F z hH hT hM P fun e he => hP e (by simp [he])
          simp only [List.map_cons, putEntries, SM.bind_apply, SM.lift_apply, p1, if_true, q1, q2, SM.pure_apply]
      | false =>
        simp only [Bool.false_eq_true, if_false] at h2
        obtain ⟨es, e1, e2, e3, e4⟩ := ihl h2
        refine ⟨es, ?_, e2.cons x, e3, e4⟩
        simp only [lookEntries, SM.bind_apply, tick_apply, h1', Bool.false_eq_true, if_false, e1]

theorem live_frozen {E : Env} {A : Answers} (hA : Spec.Proper A) {n : Nat} {path : Path} {db db' : Db} {t t' : Nat} {k : Key}
    (hp : putLive E A n path (db, t) = (.ok k, (db', t'))) : ∃ L, look A n path t = (.ok L, t') ∧ Treeish L ∧ Frozen' E n L k db db' := by
  induction n generalizing path db db' t t' k with
  | zero => simp [putLive] at hp
  | succ n ih =>
    unfold putLive at hp
    obtain ⟨e, s1, h1, h2⟩ := bind_ok hp
    obtain ⟨h1', rfl⟩ := ask_ok h1
    cases e with
    | dir =>
      obtain ⟨all, s2, h3, h4⟩ := bind_ok h2
      obtain ⟨h3', rfl⟩ := ask_ok h3
      obtain ⟨r, ⟨db3, t3⟩, h5, h6⟩ := bind_ok h4
      obtain ⟨h6', e6⟩ := fst_ok h6
      simp only at h6' e6
      subst e6
      obtain ⟨es, e1, e2, e3, e4⟩ := entries_frozen ih h5
      obtain ⟨ho, hn⟩ := hA _ _ _ h3'
      have hn' : (es.map (·.1)).Nodup := e2.nodup hn
      have ho' : ∀ e ∈ es, okName e.1 := by
        intro e he
        have := e2.subset (List.mem_map.mpr ⟨e, he, rfl⟩)
        obtain ⟨a, ha, ha'⟩ := List.mem_filterMap.mp this
        simp only [id] at ha'
        subst ha'
        exact ho _ ha
      refine ⟨_, ?_, treeish_dir hn' ho' e3, ?_⟩
      · simp only [look, SM.bind_apply, tick_apply, h1', h3', e1, SM.pure_apply]
      · intro fs E' filter F z hH hT hM P hloc hz hlies
        have hat : fs.at (loc fs.cwd P) = some .dir := by rw [hM.at_ _ hz, lies_find hlies rfl]; rfl
        have hnames : fs.names (loc fs.cwd P) = es.map (·.1) := by rw [hM.names _ hz, lies_names hlies e3]
        have hkids : ∀ e ∈ es, filter fs (Path.join P e.1) = .ok true ∧ fs.locate (Path.join P e.1) = .ok (loc fs.cwd (Path.join P e.1)) ∧
            [z] <+: loc fs.cwd (Path.join P e.1) ∧ Lies F (loc fs.cwd (Path.join P e.1)) e.2 := by
          intro e he
          have hk := lies_kid hlies hn' he
          have hz' : [z] <+: loc fs.cwd P ++ [e.1] := hz.trans (List.prefix_append _ _)
          obtain ⟨hd, tl, hL, hr, _⟩ := (e3 e he).head
          have hk' := hk
          rw [hL] at hk'
          refine ⟨hM.take P e.1 (ho' e he) hloc hat hz ⟨hd.what, by rw [hM.at_ _ hz', lies_find hk' hr]; rfl⟩, locate_join_ok (ho' e he) hloc hat, ?_, ?_⟩
          · rw [loc_join _ _ (ho' e he)]; exact hz'
          · rw [loc_join _ _ (ho' e he)]; exact hk
        have q := e4 fs E' filter F z hH hT hM P hkids
        unfold putFsItem
        simp only [SM.bind_apply, SM.lift_apply, metadata_of hloc hat (by simp), readDir_of hloc hat, hnames, q]
        rw [hH]
        simpa only [SM.bind_apply, SM.lift_apply] using h6'
    | file len =>
      obtain ⟨evs, s2, h3, h4⟩ := bind_ok h2
      obtain ⟨h3', rfl⟩ := ask_ok h3
      obtain ⟨h4', e4⟩ := fst_ok h4
      simp only at h4' e4
      subst e4
      refine ⟨_, ?_, treeish_file (some (len, evs)), ?_⟩
      · simp only [look, SM.bind_apply, tick_apply, h1', h3', SM.pure_apply]
      · intro fs E' filter F z hH hT hM P hloc hz hlies
        have hf := lies_find hlies rfl
        have hat : fs.at (loc fs.cwd P) = some (entOf (some (len, evs))) := by rw [hM.at_ _ hz, hf]; rfl
        unfold putFsItem
        simp only [SM.bind_apply, SM.lift_apply, metadata_of hloc hat (by simp [entOf])]
        simp only [entOf, putRead_eq, hM.rd, hf, evsOf, List.length_replicate]
        rw [← h4']
        unfold putRead
        rw [hH, hT]
    | other => simp at h2

/-! ### The frozen file system -/

/-- The directories on the way to `d`. -/
def wayTo (d : List Bytes) : List (List Bytes × Ent) := (List.range d.length).map fun i => (d.take (i + 1), .dir)

/-- The database folder `a/b`, and what was seen below `z`. -/
def frozenFs (a : List Bytes) (b z : Bytes) (L : List Seen) : Fs :=
  { ents := wayTo (a ++ [b]) ++ (L.map (place [z])).map (fun e => (e.1, entOf e.2)), cwd := a }

def frozenRd (a : List Bytes) (z : Bytes) (L : List Seen) : Path → Bytes → List ReadEv := fun p _ => evsOf ((L.map (place [z])).find? (·.1 == loc a p))

theorem mem_wayTo {d : List Bytes} {x : List Bytes × Ent} (h : x ∈ wayTo d) : x.2 = .dir ∧ x.1 ≠ [] ∧ x.1 <+: d := by
  obtain ⟨i, hi, rfl⟩ := List.mem_map.mp h
  have hi := List.mem_range.mp hi
  refine ⟨rfl, ?_, List.take_prefix _ _⟩
  intro h0
  simp at h0
  rw [h0] at hi
  simp at hi

theorem wayTo_mem {d q : List Bytes} (h : q <+: d) (h0 : q ≠ []) : (q, Ent.dir) ∈ wayTo d := by
  have hl := h.length_le
  have hp := List.length_pos_iff.mpr h0
  refine List.mem_map.mpr ⟨q.length - 1, List.mem_range.mpr (by omega), ?_⟩
  rw [Nat.sub_add_cancel hp, ← List.prefix_iff_eq_take.mp h]

/-- Proper names, and `z` is not the first of the way to the folder. -/
structure Spot (a : List Bytes) (b z : Bytes) : Prop where
  names : ∀ n ∈ a ++ [b], okName n
  zed : okName z
  apart : ¬ [z] <+: a ++ [b]

theorem spot_of {a : List Bytes} {b : Bytes} (h : ∀ n ∈ a ++ [b], okName n) : ∃ z, Spot a b z := by
  by_cases h1 : [[122]] <+: a ++ [b]
  · refine ⟨[121], h, by decide, fun h2 => ?_⟩
    obtain ⟨r, hr⟩ := h1
    obtain ⟨r', hr'⟩ := h2
    rw [← hr] at hr'
    simp at hr'
  · exact ⟨[122], h, by decide, h1⟩

section
variable {a : List Bytes} {b z : Bytes} {L : List Seen}

theorem frozen_nodup (hs : Spot a b z) (hL : Treeish L) : ((frozenFs a b z L).ents.map (·.1)).Nodup := by
  unfold frozenFs
  simp only [List.map_append, List.map_map]
  rw [List.nodup_append]
  refine ⟨?_, ?_, ?_⟩
  · unfold wayTo
    rw [List.map_map]
    generalize a ++ [b] = d
    have : ∀ i ∈ List.range d.length, ∀ j ∈ List.range d.length, i ≠ j →
        ((fun x : List Bytes × Ent => x.1) ∘ fun i => (d.take (i + 1), Ent.dir)) i ≠ ((fun x : List Bytes × Ent => x.1) ∘ fun i => (d.take (i + 1), Ent.dir)) j := by
      intro i hi j hj hij h
      have hi := List.mem_range.mp hi
      have hj := List.mem_range.mp hj
      have := congrArg List.length h
      simp at this
      omega
    refine List.pairwise_map.mpr ?_
    exact List.Pairwise.imp_of_mem (fun ha hb hne => this _ ha _ hb hne) List.nodup_range
  · have e1 : ((fun x : List Bytes × Ent => x.1) ∘ (fun e : List Bytes × Option (Nat × List ReadEv) => (e.1, entOf e.2)) ∘ place [z]) = (fun r => [z] ++ r) ∘ (fun s : Seen => s.rel) := rfl
    rw [e1, ← List.map_map]
    exact List.Pairwise.map _ (fun x y hxy h => hxy (List.append_cancel_left h)) hL.nodup
  · intro x hx y hy hxy
    subst hxy
    obtain ⟨u, hu, rfl⟩ := List.mem_map.mp hx
    obtain ⟨v, hv, h⟩ := List.mem_map.mp hy
    apply hs.apart
    refine List.IsPrefix.trans ?_ (mem_wayTo hu).2.2
    rw [← h]
    exact List.prefix_append _ _

theorem frozen_mem {x : List Bytes × Ent} (h : x ∈ (frozenFs a b z L).ents) : (x.2 = .dir ∧ x.1 ≠ [] ∧ x.1 <+: a ++ [b]) ∨ ∃ s ∈ L, x = (z :: s.rel, entOf s.what) := by
  rcases List.mem_append.mp h with h | h
  · exact .inl (mem_wayTo h)
  · rw [List.map_map] at h
    obtain ⟨s, hs, rfl⟩ := List.mem_map.mp h
    exact .inr ⟨s, hs, rfl⟩

theorem pairs_unique {α β} {l : List (α × β)} (hn : (l.map (·.1)).Nodup) {q : α} {e e' : β} (h : (q, e) ∈ l) (h' : (q, e') ∈ l) : e = e' := by
  induction l with
  | nil => simp at h
  | cons x l ih =>
    rw [List.map_cons, List.nodup_cons] at hn
    rcases List.mem_cons.mp h with rfl | h1
    · rcases List.mem_cons.mp h' with h2 | h2
      · exact (Prod.mk.inj h2).2.symm
      · exact (hn.1 (List.mem_map.mpr ⟨_, h2, rfl⟩)).elim
    · rcases List.mem_cons.mp h' with rfl | h2
      · exact (hn.1 (List.mem_map.mpr ⟨_, h1, rfl⟩)).elim
      · exact ih hn.2 h1 h2

theorem at_of_nodup {fs : Fs} (hn : (fs.ents.map (·.1)).Nodup) {q : List Bytes} {e : Ent} (h0 : q ≠ []) (h : (q, e) ∈ fs.ents) : fs.at q = some e := by
  cases ha : fs.at q with
  | none => exact (mem_at h ha).elim
  | some e' =>
    rw [pairs_unique hn h (at_mem h0 ha)]

theorem frozen_way (hs : Spot a b z) (hL : Treeish L) {q : List Bytes} (h : q <+: a ++ [b]) : (frozenFs a b z L).at q = some .dir := by
  by_cases h0 : q = []
  · subst h0; simp
  · exact at_of_nodup (frozen_nodup hs hL) h0 (List.mem_append_left _ (wayTo_mem h h0))

theorem frozen_seen (hs : Spot a b z) (hL : Treeish L) {s : Seen} (h : s ∈ L) : (frozenFs a b z L).at (z :: s.rel) = some (entOf s.what) := by
  refine at_of_nodup (frozen_nodup hs hL) (by simp) (List.mem_append_right _ ?_)
  rw [List.map_map]
  exact List.mem_map.mpr ⟨s, h, rfl⟩

theorem frozen_wf (hs : Spot a b z) (hL : Treeish L) : (frozenFs a b z L).Wf := by
  refine ⟨frozen_nodup hs hL, ?_, ?_, frozen_way hs hL (List.prefix_append _ _)⟩
  · intro e he n hn
    rcases frozen_mem he with ⟨_, _, h⟩ | ⟨s, hm, rfl⟩
    · exact hs.names n (h.subset hn)
    · rcases List.mem_cons.mp hn with rfl | hn
      · exact hs.zed
      · exact hL.names s hm n hn
  · intro q n h
    cases ha : (frozenFs a b z L).at (q ++ [n]) with
    | none => exact (h ha).elim
    | some e =>
      rcases frozen_mem (at_mem (by simp) ha) with ⟨_, _, h⟩ | ⟨s, hm, h⟩
      · exact frozen_way hs hL ((List.prefix_append q [n]).trans h)
      · simp only [Prod.mk.injEq] at h
        cases q with
        | nil => simp
        | cons y r =>
          simp only [List.cons_append, List.cons.injEq] at h
          obtain ⟨⟨rfl, h3⟩, _⟩ := h
          exact frozen_seen hs hL (s := ⟨r, none⟩) (hL.parents s hm r n h3.symm)

theorem frozen_find (hs : Spot a b z) {q : List Bytes} (hz : [z] <+: q) : (frozenFs a b z L).at q = ((L.map (place [z])).find? (·.1 == q)).map fun e => entOf e.2 := by
  have h0 : q ≠ [] := by rintro rfl; simp at hz
  have h1 : (wayTo (a ++ [b])).find? (·.1 == q) = none := by
    rw [List.find?_eq_none]
    intro x hx he
    simp only [beq_iff_eq] at he
    exact hs.apart (hz.trans (he ▸ (mem_wayTo hx).2.2))
  unfold Fs.at frozenFs
  simp only
  rw [if_neg h0, List.find?_append, h1, Option.none_or, List.find?_map]
  simp only [Option.map_map, Function.comp_def]

theorem frozen_names (hs : Spot a b z) {q : List Bytes} (hz : [z] <+: q) : (frozenFs a b z L).names q = (L.map (place [z])).filterMap (nameAt q) := by
  unfold Fs.names frozenFs
  simp only
  rw [List.filterMap_append]
  have h1 : (wayTo (a ++ [b])).filterMap (fun e => if e.1 ≠ [] ∧ e.1.dropLast = q then e.1.getLast? else none) = [] := by
    rw [List.filterMap_eq_nil_iff]
    intro x hx
    rw [if_neg]
    rintro ⟨_, h⟩
    exact hs.apart (hz.trans ((h ▸ List.dropLast_prefix _).trans (mem_wayTo hx).2.2))
  rw [h1, List.nil_append, List.filterMap_map]
  rfl

theorem locate_joins {fs : Fs} {P : Path} {l : List Bytes} (hl : ∀ n ∈ l, okName n) (h : fs.locate P = .ok (loc fs.cwd P)) (hd : ∀ r, r <+: l → r ≠ l → fs.at (loc fs.cwd P ++ r) = some .dir) :
    fs.locate (joins P l) = .ok (loc fs.cwd (joins P l)) := by
  induction l generalizing P with
  | nil => exact h
  | cons n l ih =>
    have hn := hl n (by simp)
    rw [joins_cons]
    refine ih (fun m hm => hl m (by simp [hm])) (locate_join_ok hn h (by simpa using hd [] (by simp) (by simp))) ?_
    intro r hr hne
    rw [loc_join _ _ hn, List.append_assoc]
    exact hd (n :: r) (List.cons_prefix_cons.mpr ⟨rfl, hr⟩) (by simpa using hne)

theorem locate_slash (fs : Fs) : fs.locate sSlash = .ok [] ∧ loc fs.cwd sSlash = [] := by
  constructor
  · simp [Fs.locate, sSlash, Path.isAbs, splitSlash, Fs.walk]
  · simp [sSlash, loc, Path.comps, Path.isAbs, splitSlash, lexStep, sDotDot]

theorem loc_abs (cwd : List Bytes) {l : List Bytes} (hl : ∀ n ∈ l, okName n) : loc cwd (joins sSlash l) = l := by
  rw [loc_joins _ _ hl, (locate_slash { cwd := cwd }).2, List.nil_append]

theorem locate_abs {fs : Fs} {l : List Bytes} (hl : ∀ n ∈ l, okName n) (hd : ∀ r, r <+: l → r ≠ l → fs.at r = some .dir) : fs.locate (joins sSlash l) = .ok l := by
  have h := locate_joins (fs := fs) (P := sSlash) hl (by rw [(locate_slash fs).1, (locate_slash fs).2]) (by rw [(locate_slash fs).2]; simpa using hd)
  rw [h, loc_abs _ hl]

theorem frozen_folder (hs : Spot a b z) (hL : Treeish L) : (frozenFs a b z L).locate (joins sSlash (a ++ [b])) = .ok (a ++ [b]) :=
  locate_abs hs.names fun _ hr _ => frozen_way hs hL hr

theorem frozen_mirror (E : Env) (hs : Spot a b z) (hL : Treeish L) :
    Mirror (frozenFs a b z L) { E with rd := frozenRd a z L } (makeFilter (fun _ => false) (joins sSlash (a ++ [b]))) (L.map (place [z])) z := by
  refine ⟨fun q hz => frozen_find hs hz, fun q hz => frozen_names hs hz, fun _ _ => rfl, ?_⟩
  intro P n hn hloc hat hz hw
  obtain ⟨w, hw⟩ := hw
  have h1 : (frozenFs a b z L).canonicalize (Path.join P n) = .ok (loc (frozenFs a b z L).cwd P ++ [n]) := by
    unfold Fs.canonicalize
    rw [locate_join_ok hn hloc hat, Res.ok_bind, loc_join _ _ hn, hw]
    cases w <;> rfl
  have h2 : (frozenFs a b z L).canonicalize (joins sSlash (a ++ [b])) = .ok (a ++ [b]) := by
    unfold Fs.canonicalize
    rw [frozen_folder hs hL, Res.ok_bind, frozen_way hs hL (List.prefix_refl _)]
  unfold makeFilter
  rw [h1, h2]
  simp only [Res.unwrap, Res.ok_bind]
  rw [if_neg]
  · rfl
  · rw [List.isPrefixOf_iff_prefix]
    intro hp
    apply hs.apart
    have hz' : [z] <+: loc (frozenFs a b z L).cwd P ++ [n] := hz.trans (List.prefix_append _ _)
    rcases List.prefix_or_prefix_of_prefix hz' hp with h | h
    · exact h
    · have h0 := h.length_le
      have : (a ++ [b]) = [z] := by
        refine h.eq_of_length ?_
        simp at h0 ⊢
        exact h0
      rw [this]
      exact List.prefix_refl _

theorem frozen_lies : Lies (L.map (place [z])) [z] L := by
  unfold Lies
  rw [List.filter_eq_self.mpr]
  intro x hx
  obtain ⟨s, _, rfl⟩ := List.mem_map.mp hx
  rw [List.isPrefixOf_iff_prefix]
  exact List.prefix_append _ _

end

/-! ### The commands -/

/-- The command that stores another path. -/
def _root_.Snap.Command.aim (p : Path) : Command → Command
  | .insert _ => .insert p
  | .commit _ message refname => .commit (some p) message refname
  | cmd => cmd

/-- The path the command stores. -/
def _root_.Snap.Command.stores (R : Repo) : Command → Option Path
  | .insert p => some p
  | .commit p _ _ => some (p.getD R.root)
  | _ => none

/-- The context in which the frozen tree is stored: nothing is excluded, the database folder is called `b`. -/
def frozenCtx (X : Ctx) (a : List Bytes) (b z : Bytes) (L : List Seen) : Ctx :=
  { X with E := { X.E with rd := frozenRd a z L }, glob := fun _ => false, dbPath := b }
def frozenRepo (a : List Bytes) (b : Bytes) : Repo := ⟨joins sSlash (a ++ [b]), joins sSlash a⟩

theorem storeLive_ok {X : Ctx} {A : Answers} {path : Path} {db db' : Db} {k : Key} (h : storeLive X A path db = (.ok k, db')) :
    ∃ t', putLive X.E A X.depth path (db, 0) = (.ok k, (db', t')) := by
  unfold storeLive at h
  rw [Prod.mk.injEq] at h
  exact ⟨(putLive X.E A X.depth path (db, 0)).2.2, by rw [← h.1, ← h.2]⟩

theorem store_frozen {X : Ctx} {A : Answers} (hA : Spec.Proper A) {path : Path} {L : List Seen} {t : Nat} (hl : look A X.depth path 0 = (.ok L, t)) (hL : Treeish L)
    {a : List Bytes} {b z : Bytes} (hs : Spot a b z) {db db' : Db} {k : Key} (h : storeLive X A path db = (.ok k, db')) :
    putFsItem (frozenCtx X a b z L).E (frozenFs a b z L) (makeFilter (frozenCtx X a b z L).glob (frozenRepo a b).folder) (frozenCtx X a b z L).depth (joins sSlash [z]) db = (.ok k, db') := by
  obtain ⟨t', h⟩ := storeLive_ok h
  obtain ⟨L', l1, l2, l3⟩ := live_frozen hA h
  rw [hl] at l1
  simp only [Prod.mk.injEq, Res.ok.injEq] at l1
  obtain ⟨rfl, rfl⟩ := l1
  have hz : ∀ n ∈ [z], okName n := by simpa using hs.zed
  have hloc : loc (frozenFs a b z L).cwd (joins sSlash [z]) = [z] := loc_abs _ hz
  refine l3 _ { X.E with rd := frozenRd a z L } _ _ z rfl rfl (frozen_mirror X.E hs hL) _ ?_ ?_ ?_
  · rw [hloc]
    refine locate_abs hz fun r hr hne => ?_
    have : r = [] := by
      rcases List.prefix_cons_iff.mp hr with h | ⟨r', rfl, h⟩
      · exact h
      · simp at h; subst h; exact (hne rfl).elim
    subst this
    simp
  · rw [hloc]; exact List.prefix_refl _
  · rw [hloc]; exact frozen_lies

theorem bind_of {σ α β} {x : SM σ α} {f : α → SM σ β} {s s' : σ} {a : α} (h : x s = (.ok a, s')) : (x >>= f) s = f a s' := by
  rw [SM.bind_apply, h]

/-- The command's own part on the frozen tree. -/
theorem body_frozen {X : Ctx} {A : Answers} (hA : Spec.Proper A) {R : Repo} {cmd : Command} {path : Path} (hc : cmd.stores R = some path) {L : List Seen} {t : Nat}
    (hl : look A X.depth path 0 = (.ok L, t)) (hL : Treeish L) {a : List Bytes} {b z : Bytes} (hs : Spot a b z) {s s' : Sys} {u : Unit} (h : cmd.live X A R s = (.ok u, s')) :
    (cmd.aim (joins sSlash [z])).inRepo (frozenCtx X a b z L) (frozenRepo a b) { s with fs := frozenFs a b z L } = (.ok (), { s' with fs := frozenFs a b z L }) := by
  cases cmd <;> simp only [Command.stores, reduceCtorEq, Option.some.injEq] at hc
  · rename_i p
    subst hc
    simp only [Command.live, insertLive] at h
    obtain ⟨k, s1, h1, h2⟩ := bind_ok h
    have h1' : storeLive X A p s.db = (.ok k, s1.db) ∧ s1 = { s with db := s1.db } := by
      simp only [onDb, SM.on, Prod.mk.injEq] at h1
      refine ⟨Prod.ext h1.1 (by rw [← h1.2]), by rw [← h1.2]⟩
    have hp := store_frozen hA hl hL hs h1'.1
    refine (bind_of (s' := { s1 with fs := frozenFs a b z L }) (a := k) ?_).trans ?_
    · simp only [onDb, SM.on, hp]
      rw [h1'.2]
    · simp only [emit, SM.modify_apply, Prod.mk.injEq] at h2 ⊢
      refine ⟨trivial, ?_⟩
      rw [← h2.2]
  · rename_i p m r
    subst hc
    simp only [Command.live, commitLive] at h
    obtain ⟨rn, s1, h1, h⟩ := bind_ok h
    obtain ⟨ps, s2, h2, h⟩ := bind_ok h
    obtain ⟨k, s3, h3, h⟩ := bind_ok h
    obtain ⟨ck, s4, h4, h5⟩ := bind_ok h
    simp only [readDb, SM.read_apply, Prod.mk.injEq] at h1 h2
    obtain ⟨h1, rfl⟩ := h1
    obtain ⟨h2, rfl⟩ := h2
    have h3' : storeLive X A (p.getD R.root) s.db = (.ok k, s3.db) ∧ s3 = { s with db := s3.db } := by
      simp only [onDb, SM.on, Prod.mk.injEq] at h3
      refine ⟨Prod.ext h3.1 (by rw [← h3.2]), by rw [← h3.2]⟩
    have hp := store_frozen hA hl hL hs h3'.1
    refine (bind_of (s' := { s with fs := frozenFs a b z L }) (a := rn) (by simp only [readDb, SM.read_apply, h1])).trans ?_
    refine (bind_of (s' := { s with fs := frozenFs a b z L }) (a := ps) (by simp only [readDb, SM.read_apply, h2])).trans ?_
    refine (bind_of (s' := { s3 with fs := frozenFs a b z L }) (a := k) ?_).trans ?_
    · simp only [onDb, SM.on, Option.getD_some, hp]
      rw [h3'.2]
    simp only [onDb, SM.on, Prod.mk.injEq] at h4 h5
    refine (bind_of (s' := { s4 with fs := frozenFs a b z L }) (a := ck) ?_).trans ?_
    · simp only [onDb, SM.on, Prod.mk.injEq]
      exact ⟨h4.1, by rw [← h4.2]; rfl⟩
    · simp only [onDb, SM.on, Prod.mk.injEq]
      exact ⟨h5.1, by rw [← h5.2]⟩

theorem frozen_caught {a : List Bytes} {b z : Bytes} {L : List Seen} (hs : Spot a b z) (hL : Treeish L) : Spec.Caught L (frozenFs a b z L) (frozenRd a z L) (joins sSlash [z]) := by
  have hz : ∀ n ∈ [z], okName n := by simpa using hs.zed
  have hloc : loc (frozenFs a b z L).cwd (joins sSlash [z]) = [z] := loc_abs _ hz
  have hback : ∀ rel e, (frozenFs a b z L).at ([z] ++ rel) = some e → ∃ s ∈ L, s.rel = rel ∧ e = entOf s.what := by
    intro rel e h
    rcases frozen_mem (at_mem (by simp) h) with ⟨_, _, h'⟩ | ⟨s, hm, h'⟩
    · exact (hs.apart ((List.prefix_append _ _).trans h')).elim
    · simp only [List.cons_append, List.nil_append, Prod.mk.injEq, List.cons.injEq, true_and] at h'
      exact ⟨s, hm, h'.1.symm, h'.2⟩
  have hrd : ∀ s ∈ L, ∀ c, frozenRd a z L (joins (joins sSlash [z]) s.rel) c = evsOf (some (z :: s.rel, s.what)) := by
    intro s hm c
    have hl : loc a (joins (joins sSlash [z]) s.rel) = z :: s.rel := by
      rw [loc_joins _ _ (hL.names s hm), loc_abs _ hz]; rfl
    unfold frozenRd
    rw [hl]
    cases hf : (L.map (place [z])).find? (·.1 == z :: s.rel) with
    | none =>
      rw [List.find?_eq_none] at hf
      exact (hf (place [z] s) (List.mem_map.mpr ⟨s, hm, rfl⟩) (by simp [place])).elim
    | some y =>
      obtain ⟨s', hm', rfl⟩ := List.mem_map.mp (List.mem_of_find?_eq_some hf)
      have hy := List.find?_some hf
      simp only [place, List.cons_append, List.nil_append, beq_iff_eq, List.cons.injEq, true_and] at hy
      have hn : ((L.map fun s => (s.rel, s.what)).map (·.1)).Nodup := by rw [List.map_map]; exact hL.nodup
      have := pairs_unique hn (q := s.rel) (e := s'.what) (e' := s.what) (List.mem_map.mpr ⟨s', hm', by rw [hy]⟩) (List.mem_map.mpr ⟨s, hm, rfl⟩)
      simp only [place, this, hy]
      rfl
  refine ⟨?_, ?_, ?_⟩
  · intro rel
    rw [hloc]
    constructor
    · intro h
      obtain ⟨s, hm, rfl, he⟩ := hback rel _ h
      have : s.what = none := by
        cases hw : s.what with
        | none => rfl
        | some y => rw [hw] at he; simp [entOf] at he
      rw [← this]
      exact hm
    · intro h
      exact frozen_seen hs hL h
  · intro rel len evs
    rw [hloc]
    constructor
    · intro h
      exact ⟨_, _, frozen_seen hs hL h, List.length_replicate, hrd _ h _⟩
    · rintro ⟨c, md, h, rfl, hc⟩
      obtain ⟨s, hm, rfl, he⟩ := hback rel _ h
      rw [hrd s hm] at hc
      cases hw : s.what with
      | none => rw [hw] at he; simp [entOf] at he
      | some y =>
        rw [hw] at he hc
        simp only [entOf, Ent.file.injEq] at he
        simp only [evsOf] at hc
        rw [← hc, he.1, List.length_replicate]
        have : s = ⟨s.rel, some (y.1, y.2)⟩ := by rw [← hw]
        rw [← this]
        exact hm
  · intro rel
    rw [hloc]
    constructor <;> intro h <;> obtain ⟨s, hm, rfl, he⟩ := hback rel _ h <;> cases hw : s.what <;> rw [hw] at he <;> simp [entOf] at he

theorem frozen_opens {X : Ctx} {w : World} {a : List Bytes} {b z : Bytes} {L : List Seen} (hs : Spot a b z) (hL : Treeish L) :
    Opens (frozenCtx X a b z L) { w with fs := frozenFs a b z L } (frozenRepo a b) (a ++ [b] ++ [sDbFile]) := by
  have hf := frozen_folder hs hL
  have hd := frozen_way hs hL (List.prefix_refl (a ++ [b]))
  have hloc : loc (frozenFs a b z L).cwd (joins sSlash (a ++ [b])) = a ++ [b] := loc_abs _ hs.names
  refine ⟨?_, ?_, ?_⟩
  · have hx : (frozenFs a b z L).exists (Path.join (joins sSlash a) b) = true := by
      rw [← joins_snoc]
      unfold Fs.exists
      rw [metadata_of (by rw [hloc]; exact hf) (by rw [hloc]; exact hd) (by simp)]
      rfl
    change findFrom (frozenFs a b z L) b (a.length + 1) (Path.ofComps (sSlash :: a)) = _
    rw [ofComps_abs, findFrom, if_pos hx, ← joins_snoc]
    rfl
  · exact parent_abs fun n hn => (hs.names n hn).comp
  · unfold openDb
    change (match (frozenFs a b z L).locate (Path.join (joins sSlash (a ++ [b])) sDbFile) with | .ok q => _ | .err _ => _ | .panic => _ | .fuel => _) = _
    have hn : okName sDbFile := by decide
    rw [locate_join_ok hn (by rw [hloc]; exact hf) (by rw [hloc]; exact hd), loc_join _ _ hn, hloc]

/-- Where the database is. -/
theorem opens_place {X : Ctx} {w : World} (hw : w.fs.Sane) {R : Repo} {q : List Bytes} (ho : Opens X w R q) : ∃ d, q = d ++ [sDbFile] ∧ ∀ n ∈ d, okName n := by
  obtain ⟨e, he⟩ := opens_folder ho
  obtain ⟨hl, _, _⟩ := metadata_ok he
  have hn : okName sDbFile := by decide
  have hq : w.fs.locate (Path.join R.folder sDbFile) = .ok q := by
    have := ho.2.2
    unfold openDb at this
    cases hc : w.fs.locate (Path.join R.folder sDbFile) with
    | ok q' => rw [hc] at this; simpa using this
    | err e => rw [hc] at this; simp at this
    | panic => rw [hc] at this; simp at this
    | fuel => rw [hc] at this; simp at this
  have hq' := hq
  rw [locate_join _ (locate_ne_nil hl) hn, hl, Res.ok_bind] at hq'
  refine ⟨loc w.fs.cwd R.folder, ?_, ?_⟩
  · rw [locate_loc hq, loc_join _ _ hn]
  · refine hw.okLoc ?_
    intro h0
    unfold Fs.enter at hq'
    rw [h0] at hq'
    simp at hq'

theorem live_hashed (X : Ctx) (A : Answers) (R : Repo) (cmd : Command) (s : Sys) : ∀ x ∈ s.db.hashed, x ∈ (cmd.live X A R s).2.db.hashed := by
  have hbind : ∀ {α β} {x : C α} {f : α → C β}, (∀ s : Sys, ∀ h ∈ s.db.hashed, h ∈ (x s).2.db.hashed) → (∀ v (s : Sys), ∀ h ∈ s.db.hashed, h ∈ (f v s).2.db.hashed) →
      ∀ s : Sys, ∀ h ∈ s.db.hashed, h ∈ ((x >>= f) s).2.db.hashed := by
    intro α β x f hx hf s h hh
    rw [SM.bind_apply]
    have := hx s h hh
    cases hr : x s with
    | mk r s' =>
      rw [hr] at this
      cases r with
      | ok v => exact hf v s' h this
      | err e => exact this
      | panic => exact this
      | fuel => exact this
  have hread : ∀ {α} (f : Db → Res α) (s : Sys), ∀ h ∈ s.db.hashed, h ∈ ((readDb f : C α) s).2.db.hashed := fun _ _ _ hh => hh
  have hstore : ∀ p (s : Sys), ∀ h ∈ s.db.hashed, h ∈ (onDb (storeLive X A p) s).2.db.hashed := fun p s h hh => (growing_live X.E A X.depth p (s.db, 0)).hashed.subset hh
  cases cmd
  case insert p => exact hbind (hstore p) (fun _ _ _ hh => hh) s
  case commit p m r =>
    refine hbind (hread _) (fun rn => hbind (hread _) fun ps => hbind (hstore _) fun k => hbind ?_ fun ck => ?_) s
    · intro s h hh
      exact ((isPuts_commitTree X.E.H k ps { message := m }).grow s.db).hashed.subset hh
    · intro s h hh
      change h ∈ (reflogPush rn none ck s.db).2.hashed
      rcases write_total (fun db => { db with reflog := db.reflog ++ [⟨rn, none, ck.asDbKey⟩] }) s.db with ⟨_, e⟩ | ⟨_, e⟩ <;>
        · unfold reflogPush
          rw [e]
          exact hh
  all_goals exact command_hashed X R _ s

theorem live_fs {X : Ctx} {A : Answers} {R : Repo} {cmd : Command} {path : Path} (hc : cmd.stores R = some path) (s : Sys) : (cmd.live X A R s).2.fs = s.fs := by
  have hbind : ∀ {α β} {x : C α} {f : α → C β}, (∀ s : Sys, (x s).2.fs = s.fs) → (∀ v (s : Sys), (f v s).2.fs = s.fs) → ∀ s : Sys, ((x >>= f) s).2.fs = s.fs := by
    intro α β x f hx hf s
    rw [SM.bind_apply]
    have := hx s
    cases hr : x s with
    | mk r s' =>
      rw [hr] at this
      cases r with
      | ok v => exact (hf v s').trans this
      | err e => exact this
      | panic => exact this
      | fuel => exact this
  cases cmd <;> simp only [Command.stores, reduceCtorEq] at hc
  · exact hbind (fun _ => rfl) (fun _ _ => rfl) s
  · exact hbind (fun _ => rfl) (fun _ => hbind (fun _ => rfl) fun _ => hbind (fun _ => rfl) fun _ => hbind (fun _ => rfl) fun _ _ => rfl) s

theorem runLive_others (X : Ctx) (A : Answers) (R : Repo) (q : List Bytes) (cmd : Command) (after : Fs) (w : World) (q' : List Bytes) (hq : q' ≠ q) :
    (runLive X A R q cmd after w).2.2.dbs q' = w.dbs q' := by
  simp [runLive, World.setDb, hq]

theorem runLive_lost (X : Ctx) (A : Answers) (R : Repo) (q : List Bytes) (cmd : Command) (after : Fs) (w : World) (h : ∀ u, (cmd.live X A R (startOf w q)).1 ≠ .ok u) :
    SameDb ((runLive X A R q cmd after w).2.2.dbs q) (w.dbs q) := by
  have hk : ∀ x ∈ (w.dbs q).hashed, x ∈ (cmd.live X A R (startOf w q)).2.db.hashed := live_hashed X A R cmd (startOf w q)
  simp only [runLive, World.setDb, if_true, Conn.begin, Conn.exec, Conn.view, Option.getD_some]
  change SameDb (Conn.finish (cmd.live X A R (startOf w q)).1 (Conn.mk (w.dbs q) (some (cmd.live X A R (startOf w q)).2.db))).durable _
  cases hr : (cmd.live X A R (startOf w q)).1 with
  | ok u => exact (h u hr).elim
  | err e => exact ⟨⟨rfl, rfl, rfl⟩, hk⟩
  | panic => exact ⟨⟨rfl, rfl, rfl⟩, hk⟩
  | fuel => exact ⟨⟨rfl, rfl, rfl⟩, hk⟩

/-- What `runLive` and `runIn` make of equal results. -/
theorem runs_alike {X X' : Ctx} {A : Answers} {R R' : Repo} {q : List Bytes} {cmd cmd' : Command} {after : Fs} {w : World} {fs : Fs} {r : Res Unit} {s : Sys}
    (h : cmd.live X A R (startOf w q) = (r, s)) (h' : cmd'.inRepo X' R' { startOf w q with fs := fs } = (r, { s with fs := fs })) :
    runIn X' R' q cmd' { w with fs := fs } = ((runLive X A R q cmd after w).1, (runLive X A R q cmd after w).2.1, { (runLive X A R q cmd after w).2.2 with fs := fs }) := by
  have e1 : runIn X' R' q cmd' { w with fs := fs } = (let s := cmd'.inRepo X' R' { startOf w q with fs := fs }
      let ca := Cache.finish s.1 w.cache s.2.cache
      (exitOf s.1 ca.1, s.2.out, World.setDb { w with fs := s.2.fs, cache := ca.2 } q (Conn.finish s.1 (Conn.mk (w.dbs q) (some s.2.db))).durable)) := rfl
  have e2 : runLive X A R q cmd after w = (let s := cmd.live X A R (startOf w q)
      let ca := Cache.finish s.1 w.cache s.2.cache
      (exitOf s.1 ca.1, s.2.out, World.setDb { w with fs := after, cache := ca.2 } q (Conn.finish s.1 (Conn.mk (w.dbs q) (some s.2.db))).durable)) := rfl
  rw [e1, e2, h, h']
  rfl

theorem aim_ne_init {cmd : Command} (h : cmd ≠ .init) (p : Path) : cmd.aim p ≠ .init := by
  cases cmd <;> simp_all [Command.aim]

theorem stores_ne_init {cmd : Command} {R : Repo} {p : Path} (h : cmd.stores R = some p) : cmd ≠ .init := by
  rintro rfl; simp [Command.stores] at h

theorem live_seen {X : Ctx} {A : Answers} {R : Repo} {cmd : Command} {path : Path} (hc : cmd.stores R = some path) {s s' : Sys} {u : Unit} (h : cmd.live X A R s = (.ok u, s')) :
    ∃ k db db' t, putLive X.E A X.depth path (db, 0) = (.ok k, (db', t)) := by
  have key : ∀ {p : Path} {k : Key} {a b : Sys}, onDb (storeLive X A p) a = (.ok k, b) → ∃ k db db' t, putLive X.E A X.depth p (db, 0) = (.ok k, (db', t)) := by
    intro p k a b h
    simp only [onDb, SM.on, Prod.mk.injEq] at h
    obtain ⟨t, ht⟩ := storeLive_ok (db := a.db) (db' := (storeLive X A p a.db).2) (Prod.ext h.1 rfl)
    exact ⟨_, _, _, _, ht⟩
  cases cmd <;> simp only [Command.stores, reduceCtorEq, Option.some.injEq] at hc
  · subst hc
    simp only [Command.live, insertLive] at h
    obtain ⟨k, s1, h1, h2⟩ := bind_ok h
    exact key h1
  · subst hc
    simp only [Command.live, commitLive] at h
    obtain ⟨rn, s1, h1, h⟩ := bind_ok h
    obtain ⟨ps, s2, h2, h⟩ := bind_ok h
    obtain ⟨k, s3, h3, h⟩ := bind_ok h
    exact key h3

/-- The run on the frozen tree. -/
theorem run_frozen {X : Ctx} {A : Answers} (hA : Spec.Proper A) {w : World} (hs : w.fs.Sane) {R : Repo} {q : List Bytes} (ho : Opens X w R q) (hroot : 2 ≤ q.length)
    {cmd : Command} {path : Path} (hc : cmd.stores R = some path) (after : Fs) {u : Unit} (h : (cmd.live X A R (startOf w q)).1 = .ok u) :
    ∃ (X' : Ctx) (fs' : Fs) (R' : Repo) (p : Path) (seen : List Seen) (t : Nat), look A X.depth path 0 = (.ok seen, t) ∧ Spec.Caught seen fs' X'.E.rd p ∧
      X'.E.H = X.E.H ∧ X'.E.table = X.E.table ∧ X'.depth = X.depth ∧ fs'.Wf ∧ Opens X' { w with fs := fs' } R' q ∧
      mainRun X' (cmd.aim p) { w with fs := fs' } =
        ((runLive X A R q cmd after w).1, (runLive X A R q cmd after w).2.1, { (runLive X A R q cmd after w).2.2 with fs := fs' }) := by
  obtain ⟨d, rfl, hd⟩ := opens_place hs ho
  have hd0 : d ≠ [] := by rintro rfl; simp at hroot
  obtain ⟨a, b, rfl⟩ : ∃ a b, d = a ++ [b] := ⟨d.dropLast, d.getLast hd0, (List.dropLast_concat_getLast hd0).symm⟩
  obtain ⟨z, hz⟩ := spot_of hd
  have hr : cmd.live X A R (startOf w (a ++ [b] ++ [sDbFile])) = (.ok (), (cmd.live X A R (startOf w (a ++ [b] ++ [sDbFile]))).2) := by rw [← h]
  obtain ⟨k, db, db', t, hp⟩ := live_seen hc hr
  obtain ⟨L, l1, l2, _⟩ := live_frozen hA hp
  have hb := body_frozen hA hc l1 l2 hz hr
  refine ⟨frozenCtx X a b z L, frozenFs a b z L, frozenRepo a b, joins sSlash [z], L, t, l1, frozen_caught hz l2, rfl, rfl, rfl, frozen_wf hz l2, frozen_opens hz l2, ?_⟩
  rw [mainRun_open (aim_ne_init (stores_ne_init hc) _) (frozen_opens hz l2)]
  exact runs_alike hr hb

/-! ### The property -/

/-- Where nothing changes, storing while the tree may change is what the other theorems are about. -/
theorem C93_still (X : Ctx) (w : World) (R : Repo) (q : List Bytes) (ho : Opens X w R q) (cmd : Command) (path : Path) (hc : cmd.stores R = some path) :
    runLive X (Spec.still X.E w.fs (makeFilter X.glob R.folder)) R q cmd w.fs w = mainRun X cmd w := by
  rw [mainRun_open (stores_ne_init hc) ho]
  have hst : ∀ p, storeLive X (Spec.still X.E w.fs (makeFilter X.glob R.folder)) p = putFsItem X.E w.fs (makeFilter X.glob R.folder) X.depth p := by
    intro p
    funext db
    obtain ⟨t, ht⟩ := putLive_still X.E w.fs (makeFilter X.glob R.folder) X.depth p db 0
    unfold storeLive
    rw [ht]
  have hbody : (cmd.live X (Spec.still X.E w.fs (makeFilter X.glob R.folder)) R (startOf w q)) = cmd.inRepo X R (startOf w q) := by
    cases cmd <;> simp only [Command.stores, reduceCtorEq] at hc
    · simp only [Command.live, insertLive, Command.inRepo, cmdInsert, hst, SM.bind_apply]
      rfl
    · rename_i p m r
      simp only [Command.live, commitLive, Command.inRepo, cmdCommit, hst, SM.bind_apply, readDb, SM.read_apply]
      cases refOrHead (startOf w q).db r with
      | ok rn => simp only; cases parentsOf (startOf w q).db rn <;> rfl
      | err e => rfl
      | panic => rfl
      | fuel => rfl
  have hfs := live_fs (X := X) (A := Spec.still X.E w.fs (makeFilter X.glob R.folder)) hc (startOf w q)
  rw [hbody] at hfs
  have h2 : cmd.inRepo X R { startOf w q with fs := w.fs } = ((cmd.inRepo X R (startOf w q)).1, { (cmd.inRepo X R (startOf w q)).2 with fs := w.fs }) :=
    Prod.ext rfl (by
      have hw : w.fs = (cmd.inRepo X R (startOf w q)).2.fs := hfs.symm
      rw [show ({ (cmd.inRepo X R (startOf w q)).2 with fs := w.fs } : Sys) = { (cmd.inRepo X R (startOf w q)).2 with fs := (cmd.inRepo X R (startOf w q)).2.fs } by rw [← hw]]
      rfl)
  exact (runs_alike (after := w.fs) (hbody.trans rfl) h2).symm

/-- **C93** (the same as some tree that stands still): whatever other processes do to the files while `insert` or `commit` runs, a run that succeeds does to the database what
a run on some well-formed tree that nobody touches does, prints the same and ends the same way. That tree has just the directories and files that were seen, each at the
moment it was looked at, with the lengths and the reads found then. Needed: directory listings with proper names and none twice, and a database folder that is not the root. -/
theorem C93_frozen (X : Ctx) (A : Answers) (hA : Spec.Proper A) (w : World) (hs : w.fs.Sane) (R : Repo) (q : List Bytes) (ho : Opens X w R q) (hroot : 2 ≤ q.length)
    (cmd : Command) (path : Path) (hc : cmd.stores R = some path) (after : Fs) (h : (runLive X A R q cmd after w).1 = .success) :
    ∃ (X' : Ctx) (fs' : Fs) (R' : Repo) (p : Path) (seen : List Seen) (t : Nat), Spec.look A X.depth path 0 = (.ok seen, t) ∧ Spec.Caught seen fs' X'.E.rd p ∧
      X'.E.H = X.E.H ∧ X'.E.table = X.E.table ∧ X'.depth = X.depth ∧ fs'.Wf ∧ Opens X' { w with fs := fs' } R' q ∧
      mainRun X' (cmd.aim p) { w with fs := fs' } =
        ((runLive X A R q cmd after w).1, (runLive X A R q cmd after w).2.1, { (runLive X A R q cmd after w).2.2 with fs := fs' }) := by
  refine run_frozen hA hs ho hroot hc after (u := ()) ?_
  have h' : exitOf (cmd.live X A R (startOf w q)).1 (Cache.finish (cmd.live X A R (startOf w q)).1 w.cache (cmd.live X A R (startOf w q)).2.cache).1 = .success := h
  cases hr : (cmd.live X A R (startOf w q)).1 with
  | ok u => rfl
  | err e => rw [hr] at h'; simp [exitOf] at h'
  | panic => rw [hr] at h'; simp [exitOf] at h'
  | fuel => rw [hr] at h'; simp [exitOf] at h'

/-- The listings of a tree have proper names and none twice, whatever happens in between. -/
theorem C93_proper (E : Env) (hist : Nat → Fs) (hw : ∀ t, (hist t).Sane) (filter : Filter) : Spec.Proper (Spec.during E hist filter) := by
  intro t p l h
  have h' : ((hist t).readDir p).bind (fun l => .ok (l.map some)) = .ok l := h
  cases hr : (hist t).readDir p with
  | ok l' =>
    rw [hr] at h'
    simp only [Res.bind, Res.ok.injEq] at h'
    obtain ⟨_, _, rfl⟩ := readDir_ok hr
    subst h'
    refine ⟨?_, ?_⟩
    · intro n hn
      obtain ⟨m, hm, e⟩ := List.mem_map.mp hn
      simp only [Option.some.injEq] at e
      subst e
      exact (hw t).okLoc (mem_names.mp hm) m (by simp)
    · rw [List.filterMap_map, show (id ∘ some : Bytes → Option Bytes) = some from rfl, List.filterMap_some]
      exact names_nodup (hw t).nodup _
  | err e => rw [hr] at h'; simp [Res.bind] at h'
  | panic => rw [hr] at h'; simp [Res.bind] at h'
  | fuel => rw [hr] at h'; simp [Res.bind] at h'

/-- A run that does not succeed because of what happens to the files leaves every database as it was. -/
theorem C93_lost (X : Ctx) (A : Answers) (w : World) (R : Repo) (q : List Bytes) (cmd : Command) (after : Fs)
    (h : (∃ e, (runLive X A R q cmd after w).1 = .fatal e) ∨ (runLive X A R q cmd after w).1 = .panicked) (q' : List Bytes) :
    SameDb ((runLive X A R q cmd after w).2.2.dbs q') (w.dbs q') := by
  by_cases hq : q' = q
  · subst hq
    refine runLive_lost X A R q' cmd after w fun u hu => ?_
    have h' : (runLive X A R q' cmd after w).1 = exitOf (cmd.live X A R (startOf w q')).1 (Cache.finish (cmd.live X A R (startOf w q')).1 w.cache (cmd.live X A R (startOf w q')).2.cache).1 := rfl
    rw [h', hu] at h
    simp only [exitOf] at h
    split at h <;> simp at h
  · rw [runLive_others X A R q cmd after w q' hq]
    exact SameDb.refl _

/-- So all that is proved about databases only ever written by commands on trees that stand still (`World.Sound`) holds as well if the trees changed meanwhile. -/
theorem C93_sound (X : Ctx) (A : Answers) (hA : Spec.Proper A) (w : World) (hw : w.Sound X.E.H) (R : Repo) (q : List Bytes) (ho : Opens X w R q) (hroot : 2 ≤ q.length)
    (cmd : Command) (hc : cmd ≠ .init) (after : Fs) (ha : after.Sane) : (runLive X A R q cmd after w).2.2.Sound X.E.H := by
  cases hst : cmd.stores R with
  | none =>
    have hl : cmd.live X A R = cmd.inRepo X R := by cases cmd <;> first | rfl | simp [Command.stores] at hst
    refine (hw.run X cmd).step (.edit _ _ fun q' => ?_) ha
    rw [mainRun_open hc ho]
    have : (runLive X A R q cmd after w).2.2.dbs = (runIn X R q cmd w).2.2.dbs := by
      have e1 : (runLive X A R q cmd after w).2.2.dbs = (World.setDb w q (Conn.finish (cmd.live X A R (startOf w q)).1 (Conn.mk (w.dbs q) (some (cmd.live X A R (startOf w q)).2.db))).durable).dbs := rfl
      have e2 : (runIn X R q cmd w).2.2.dbs = (World.setDb w q (Conn.finish (cmd.inRepo X R (startOf w q)).1 (Conn.mk (w.dbs q) (some (cmd.inRepo X R (startOf w q)).2.db))).durable).dbs := rfl
      rw [e1, e2, hl]
    rw [this]
    exact SameDb.refl _
  | some path =>
    by_cases h : ∃ u, (cmd.live X A R (startOf w q)).1 = .ok u
    · obtain ⟨u, h⟩ := h
      obtain ⟨X', fs', R', p, seen, t, _, _, hH, _, _, hwf, ho', hrun⟩ := run_frozen hA hw.sane ho hroot hst after h
      have s1 : World.Sound X.E.H { w with fs := fs' } := hw.step (.edit _ _ fun _ => SameDb.refl _) hwf.sane
      have s2 := s1.step (.run X' hH (cmd.aim p) _) (by rw [hrun]; exact hwf.sane)
      refine s2.step (.edit _ _ fun q' => ?_) ha
      rw [hrun]
      exact SameDb.refl _
    · refine hw.step (.edit _ _ fun q' => ?_) ha
      by_cases hq : q' = q
      · subst hq
        exact runLive_lost X A R q' cmd after w fun u hu => h ⟨u, hu⟩
      · rw [runLive_others X A R q cmd after w q' hq]
        exact SameDb.refl _

/-- **C93** (each file as it was read): what `put_fs_item` stores, whatever happens to the files meanwhile and whatever the listings contain: a tree with a node for each thing
seen, and for each file all the bytes that its reads delivered (or those C24 leaves). -/
theorem C93_contents (E : Env) (A : Answers) (n : Nat) (path : Path) (db db' : Db) (t t' : Nat) (k : Key) (hi : Inv E.H db)
    (h : putLive E A n path (db, t) = (.ok k, (db', t'))) (hc : NoColl E.H db') :
    ∃ ps : List (KNode × Seen), Snap.Stored db' n k (ps.map (·.1)) ∧ Spec.look A n path t = (.ok (ps.map (·.2)), t') ∧
      ∀ x ∈ ps, x.1.node.rel = x.2.rel ∧ Spec.KeptOf E.table x.1.node.content x.2.what := live_made hi h hc

end Snap.Props
