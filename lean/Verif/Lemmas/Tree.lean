import Verif.Lemmas.FsItem
import Verif.Lemmas.FsOps
import Verif.Model.Dir
/-! Stored trees and directory trees as flat lists of nodes; `put_fs_item` turns one into the other. -/
namespace Snap
set_option linter.unusedSectionVars false
variable [Serde] [LawfulSerde]

/-- A node of a tree: names from the root, contents (none: directory). -/
structure Node where
  rel : List Bytes
  content : Option Bytes
  deriving DecidableEq, Repr

/-- A node of a stored tree, with its key. -/
structure KNode where
  node : Node
  key : Key
  deriving Repr

def Node.under (n : Bytes) (x : Node) : Node := { x with rel := n :: x.rel }
def KNode.under (n : Bytes) (x : KNode) : KNode := { x with node := x.node.under n }

@[simp] theorem Node.under_rel (n : Bytes) (x : Node) : (x.under n).rel = n :: x.rel := rfl
@[simp] theorem Node.under_content (n : Bytes) (x : Node) : (x.under n).content = x.content := rfl
@[simp] theorem KNode.under_node (n : Bytes) (x : KNode) : (x.under n).node = x.node.under n := rfl
@[simp] theorem KNode.under_key (n : Bytes) (x : KNode) : (x.under n).key = x.key := rfl

/-- Key `k` stores the tree with the given nodes (root first, a directory's nodes in storage order); the depth is at most `n`. -/
def Stored (db : Db) : Nat → Key → List KNode → Prop
  | 0, _, _ => False
  | n + 1, k, ns =>
    (∃ sz nm ck c m, getItem db k = .ok ⟨sz, .file, nm, [ck]⟩ ∧ m ≤ 5 ∧ Den db m ck c ∧ ns = [⟨⟨[], some c⟩, k⟩]) ∨
    (∃ sz, ∃ es : List (Bytes × Key × List KNode), getItem db k = .ok ⟨sz, .dir, es.map (·.1), es.map (·.2.1)⟩ ∧
      ns = ⟨⟨[], none⟩, k⟩ :: es.flatMap (fun e => e.2.2.map (KNode.under e.1)) ∧ ∀ e ∈ es, Stored db n e.2.1 e.2.2)

/-- The accepted names of a listing. -/
def acceptAll (fs : Fs) (filter : Filter) (path : Path) : List Bytes → List Bytes → Prop
  | [], acc => acc = []
  | n :: ns, acc =>
    (filter fs (Path.join path n) = .ok true ∧ ∃ acc', acc = n :: acc' ∧ acceptAll fs filter path ns acc') ∨
    (filter fs (Path.join path n) = .ok false ∧ acceptAll fs filter path ns acc)

/-- Walking `path` through the filter gives the nodes `ns`; the depth is at most `n`. -/
def Listed (fs : Fs) (filter : Filter) : Nat → Path → List Node → Prop
  | 0, _, _ => False
  | n + 1, path, ns =>
    (∃ c md, fs.metadata path = .ok (.file c md) ∧ ns = [⟨[], some c⟩]) ∨
    (fs.metadata path = .ok .dir ∧ ∃ all, fs.readDir path = .ok all ∧ ∃ es : List (Bytes × List Node),
      acceptAll fs filter path all (es.map (·.1)) ∧ ns = ⟨[], none⟩ :: es.flatMap (fun e => e.2.map (Node.under e.1)) ∧
      ∀ e ∈ es, Listed fs filter n (Path.join path e.1) e.2)

theorem Stored.mono {a b : Db} (h : a.data <+: b.data) {n : Nat} {k : Key} {ns : List KNode} (hs : Stored a n k ns) : Stored b n k ns := by
  induction n generalizing k ns with
  | zero => exact hs
  | succ n ih =>
    rcases hs with ⟨sz, nm, ck, c, m, h1, h2, h3, h4⟩ | ⟨sz, es, h1, h2, h3⟩
    · exact Or.inl ⟨sz, nm, ck, c, m, getItem_mono h h1, h2, h3.mono h, h4⟩
    · exact Or.inr ⟨sz, es, getItem_mono h h1, h2, fun e he => ih (h3 e he)⟩

theorem isPuts_putFile (E : Env) (path : Path) (c : Bytes) : IsPuts E.H (putFile E path c) :=
  isPuts_bind (isPuts_putData _ _ _) fun _ => isPuts_bind (isPuts_lift _ _) fun _ => isPuts_putObj _ _

theorem isPuts_putEntries (E : Env) (fs : Fs) (filter : Filter) {rec : Path → M Key} (h : ∀ p, IsPuts E.H (rec p)) (path : Path) (l : List Bytes) :
    IsPuts E.H (putEntries fs filter rec path l) := by
  induction l with
  | nil => exact isPuts_pure _ _
  | cons n ns ih =>
    unfold putEntries
    refine isPuts_bind (isPuts_lift _ _) fun b => ?_
    cases b with
    | true => exact isPuts_bind (h _) fun k => isPuts_bind ih fun r => isPuts_pure _ _
    | false => exact ih

theorem isPuts_putFsItem (E : Env) (fs : Fs) (filter : Filter) (n : Nat) (path : Path) : IsPuts E.H (putFsItem E fs filter n path) := by
  induction n generalizing path with
  | zero => exact isPuts_lift _ _
  | succ n ih =>
    unfold putFsItem
    refine isPuts_bind (isPuts_lift _ _) fun e => ?_
    cases e with
    | dir =>
      exact isPuts_bind (isPuts_lift _ _) fun names => isPuts_bind (isPuts_putEntries E fs filter ih path names) fun r =>
        isPuts_bind (isPuts_lift _ _) fun o => isPuts_putObj _ _
    | file c md => exact isPuts_putFile E path c
    | special => exact isPuts_panic _
    | broken => exact isPuts_panic _

/-- What reading back gives, for contents `c` at `path`: all that was read, or what is left of it after the loss of C24. -/
def Kept (E : Env) (path : Path) : Option Bytes → Option Bytes → Prop
  | none, none => True
  | some kept, some c => ∃ lost, Spec.delivered (E.rd path c) = lost ++ kept ∧
      (Spec.Spilled ((chunks E.table (E.rd path c)).1.map Prod.snd) → 32768 ≤ lost.length) ∧
      (¬ Spec.Spilled ((chunks E.table (E.rd path c)).1.map Prod.snd) → lost = [])
  | _, _ => False

/-- A stored node and the node of the directory tree it was made from. -/
abbrev Pair := KNode × Node
def Pair.under (n : Bytes) (x : Pair) : Pair := (x.1.under n, x.2.under n)

def Paired (E : Env) (path : Path) (ps : List Pair) : Prop :=
  ∀ x ∈ ps, x.1.node.rel = x.2.rel ∧ Kept E (joins path x.2.rel) x.1.node.content x.2.content

/-- The object's type is that of a directory (`b`) or a file. -/
def Typed (db : Db) (k : Key) (b : Bool) : Prop := ∃ o, getObj db k = .ok o ∧ o.objtype = if b then .fsItemDir else .fsItemFile

theorem Typed.mono {a b : Db} (h : a.data <+: b.data) {k : Key} {d : Bool} (ht : Typed a k d) : Typed b k d := by
  obtain ⟨o, h1, h2⟩ := ht
  exact ⟨o, getObj_mono h h1, h2⟩

/-- Every node's key is what `put_fs_item` gives for its place, and its object has the right type. -/
def Made (E : Env) (fs : Fs) (filter : Filter) (n : Nat) (path : Path) (db : Db) (ps : List Pair) : Prop :=
  ∀ x ∈ ps, (∃ m, m ≤ n ∧ ∃ d d', Inv E.H d ∧ putFsItem E fs filter m (joins path x.2.rel) d = (.ok x.1.key, d') ∧ NoColl E.H d' ∧ d'.data <+: db.data) ∧
    Typed db x.1.key x.1.node.content.isNone

theorem Made.mono {E : Env} {fs : Fs} {filter : Filter} {n : Nat} {path : Path} {a b : Db} (h : a.data <+: b.data) {ps : List Pair} (hm : Made E fs filter n path a ps) :
    Made E fs filter n path b ps := fun x hx =>
  let ⟨⟨m, h1, d, d', h2, h3, h4, h5⟩, ht⟩ := hm x hx
  ⟨⟨m, h1, d, d', h2, h3, h4, h5.trans h⟩, ht.mono h⟩

theorem putFile_ok {E : Env} {path : Path} {c : Bytes} {db db' : Db} {k : Key} (hi : Inv E.H db)
    (hp : putFile E path c db = (.ok k, db')) (hc : NoColl E.H db') :
    ∃ ck m c', getItem db' k = .ok ⟨c.length, .file, [], [ck]⟩ ∧ m ≤ 5 ∧ Den db' m ck c' ∧ Kept E path (some c') (some c) ∧ Typed db' k false := by
  unfold putFile at hp
  obtain ⟨ck, db1, h1, h2⟩ := bind_ok hp
  obtain ⟨o, db2, h3, h4⟩ := bind_ok h2
  simp only [SM.lift_apply, Prod.mk.injEq] at h3
  obtain ⟨h3, rfl⟩ := h3
  have g1 := (isPuts_putData E.table E.H (E.rd path c)).grow db
  rw [h1] at g1
  have g2 := (isPuts_putObj E.H o).grow db1
  rw [h4] at g2
  obtain ⟨m, hm, lost, kept, hd, hden, h5, h6⟩ := putData_ok h1 hi (hc.mono g2.hashed)
  refine ⟨ck, m, kept, putItem_getItem (g1.inv hi) h3 h4 hc, hm, hden.mono g2.data, ⟨lost, hd, h5, h6⟩, o, putObj_getObj (g1.inv hi) h4 hc, ?_⟩
  rw [(FsItem.toObject_ok h3).2]
  rfl

theorem putEntries_ok {E : Env} {fs : Fs} {filter : Filter} {n : Nat}
    (ih : ∀ {path : Path} {db db' : Db} {k : Key}, Inv E.H db → putFsItem E fs filter n path db = (.ok k, db') → NoColl E.H db' →
      ∃ ps : List Pair, Stored db' n k (ps.map (·.1)) ∧ Listed fs filter n path (ps.map (·.2)) ∧ Paired E path ps ∧ Made E fs filter n path db' ps)
    {path : Path} {l : List Bytes} {db db' : Db} {r : List (Bytes × Key)} (hi : Inv E.H db)
    (hp : putEntries fs filter (putFsItem E fs filter n) path l db = (.ok r, db')) (hc : NoColl E.H db') :
    ∃ es : List (Bytes × Key × List Pair), r = es.map (fun e => (e.1, e.2.1)) ∧ acceptAll fs filter path l (es.map (·.1)) ∧
      ∀ e ∈ es, Stored db' n e.2.1 (e.2.2.map (·.1)) ∧ Listed fs filter n (Path.join path e.1) (e.2.2.map (·.2)) ∧ Paired E (Path.join path e.1) e.2.2 ∧
        Made E fs filter n (Path.join path e.1) db' e.2.2 := by
  induction l generalizing db r with
  | nil =>
    simp [putEntries] at hp
    exact ⟨[], by simp [hp.1], rfl, by simp⟩
  | cons x l ihl =>
    unfold putEntries at hp
    obtain ⟨b, db1, h1, h2⟩ := bind_ok hp
    simp only [SM.lift_apply, Prod.mk.injEq] at h1
    obtain ⟨h1, rfl⟩ := h1
    cases b with
    | true =>
      simp only [if_true] at h2
      obtain ⟨k, db2, h3, h4⟩ := bind_ok h2
      obtain ⟨r', db3, h5, h6⟩ := bind_ok h4
      simp at h6
      obtain ⟨rfl, rfl⟩ := h6
      have g1 := (isPuts_putFsItem E fs filter n (Path.join path x)).grow db
      rw [h3] at g1
      have g2 := (isPuts_putEntries E fs filter (isPuts_putFsItem E fs filter n) path l).grow db2
      rw [h5] at g2
      obtain ⟨ps, s1, s2, s3, s4⟩ := ih hi h3 (hc.mono g2.hashed)
      obtain ⟨es, e1, e2, e3⟩ := ihl (g1.inv hi) h5
      refine ⟨(x, k, ps) :: es, by simp [e1], Or.inl ⟨h1, _, rfl, e2⟩, ?_⟩
      intro e he
      rcases List.mem_cons.mp he with rfl | he
      · exact ⟨s1.mono g2.data, s2, s3, s4.mono g2.data⟩
      · exact e3 e he
    | false =>
      simp only [Bool.false_eq_true, if_false] at h2
      obtain ⟨es, e1, e2, e3⟩ := ihl hi h2
      exact ⟨es, e1, Or.inr ⟨h1, e2⟩, e3⟩

/-- What a successful `put_fs_item` has stored. -/
theorem putFsItem_made {E : Env} {fs : Fs} {filter : Filter} {n : Nat} {path : Path} {db db' : Db} {k : Key}
    (hi : Inv E.H db) (hp : putFsItem E fs filter n path db = (.ok k, db')) (hc : NoColl E.H db') :
    ∃ ps : List Pair, Stored db' n k (ps.map (·.1)) ∧ Listed fs filter n path (ps.map (·.2)) ∧ Paired E path ps ∧ Made E fs filter n path db' ps := by
  induction n generalizing path db db' k with
  | zero => simp [putFsItem] at hp
  | succ n ih =>
    have hp0 := hp
    unfold putFsItem at hp
    obtain ⟨e, db1, h1, h2⟩ := bind_ok hp
    simp only [SM.lift_apply, Prod.mk.injEq] at h1
    obtain ⟨h1, rfl⟩ := h1
    cases e with
    | dir =>
      obtain ⟨all, db2, h3, h4⟩ := bind_ok h2
      simp only [SM.lift_apply, Prod.mk.injEq] at h3
      obtain ⟨h3, rfl⟩ := h3
      obtain ⟨r, db3, h5, h6⟩ := bind_ok h4
      obtain ⟨o, db4, h7, h8⟩ := bind_ok h6
      simp only [SM.lift_apply, Prod.mk.injEq] at h7
      obtain ⟨h7, rfl⟩ := h7
      have g1 := (isPuts_putEntries E fs filter (isPuts_putFsItem E fs filter n) path all).grow db
      rw [h5] at g1
      have g2 := (isPuts_putObj E.H o).grow db3
      rw [h8] at g2
      obtain ⟨es, rfl, e2, e3⟩ := putEntries_ok ih hi h5 (hc.mono g2.hashed)
      refine ⟨(⟨⟨[], none⟩, k⟩, ⟨[], none⟩) :: es.flatMap (fun e => e.2.2.map (Pair.under e.1)),
        Or.inr ⟨es.length, es.map (fun e => (e.1, e.2.1, e.2.2.map (·.1))), ?_, ?_, ?_⟩,
        Or.inr ⟨h1, all, h3, es.map (fun e => (e.1, e.2.2.map (·.2))), ?_, ?_, ?_⟩, ?_, ?_⟩
      · have := putItem_getItem (g1.inv hi) h7 h8 hc
        simpa [Function.comp_def] using this
      · simp [List.map_flatMap, List.flatMap_map, Function.comp_def, Pair.under]
      · intro e he
        obtain ⟨e', he', rfl⟩ := List.mem_map.mp he
        exact (e3 e' he').1.mono g2.data
      · simpa [Function.comp_def] using e2
      · simp [List.map_flatMap, List.flatMap_map, Function.comp_def, Pair.under]
      · intro e he
        obtain ⟨e', he', rfl⟩ := List.mem_map.mp he
        exact (e3 e' he').2.1
      · intro x hx
        rcases List.mem_cons.mp hx with rfl | hx
        · exact ⟨rfl, trivial⟩
        · obtain ⟨e, he, hx⟩ := List.mem_flatMap.mp hx
          obtain ⟨y, hy, rfl⟩ := List.mem_map.mp hx
          obtain ⟨a1, a2⟩ := (e3 e he).2.2.1 y hy
          exact ⟨by simp [Pair.under, a1], a2⟩
      · intro x hx
        rcases List.mem_cons.mp hx with rfl | hx
        · refine ⟨⟨n + 1, Nat.le_refl _, db, db', hi, hp0, hc, List.prefix_refl _⟩, o, putObj_getObj (g1.inv hi) h8 hc, ?_⟩
          rw [(FsItem.toObject_ok h7).2]
          rfl
        · obtain ⟨e, he, hx⟩ := List.mem_flatMap.mp hx
          obtain ⟨y, hy, rfl⟩ := List.mem_map.mp hx
          obtain ⟨⟨m, hm, d, d', hq1, hq2, hq3, hq4⟩, ht⟩ := (e3 e he).2.2.2 y hy
          exact ⟨⟨m, by omega, d, d', hq1, hq2, hq3, hq4.trans g2.data⟩, ht.mono g2.data⟩
    | file c md =>
      obtain ⟨ck, m, c', a1, a2, a3, a4, a5⟩ := putFile_ok hi h2 hc
      refine ⟨[(⟨⟨[], some c'⟩, k⟩, ⟨[], some c⟩)], Or.inl ⟨_, _, ck, c', m, a1, a2, a3, rfl⟩, Or.inl ⟨c, md, h1, rfl⟩, ?_, ?_⟩
      · intro x hx
        simp at hx
        subst hx
        exact ⟨rfl, a4⟩
      · intro x hx
        simp at hx
        subst hx
        exact ⟨⟨n + 1, Nat.le_refl _, db, db', hi, hp0, hc, List.prefix_refl _⟩, a5⟩
    | special => simp at h2
    | broken => simp at h2

theorem putFsItem_ok {E : Env} {fs : Fs} {filter : Filter} {n : Nat} {path : Path} {db db' : Db} {k : Key}
    (hi : Inv E.H db) (hp : putFsItem E fs filter n path db = (.ok k, db')) (hc : NoColl E.H db') :
    ∃ ps : List Pair, Stored db' n k (ps.map (·.1)) ∧ Listed fs filter n path (ps.map (·.2)) ∧ Paired E path ps := by
  obtain ⟨ps, h1, h2, h3, _⟩ := putFsItem_made hi hp hc
  exact ⟨ps, h1, h2, h3⟩

end Snap
