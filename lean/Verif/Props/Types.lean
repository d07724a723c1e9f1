import Verif.Props.Acyclic
import Verif.Props.Effects
import Verif.Lemmas.Sane
/-! C75: every file and directory in a database is complete. -/
namespace Snap.Props
open Snap
set_option linter.unusedSectionVars false
variable [Serde] [LawfulSerde]

/-! ### Invariants of databases -/

theorem keeps_end {H : Bytes → Key} {α σ : Type} {π : σ → Db} {I : Db → Prop} {K : Call → Prop} {x : SM σ α} (h : Keeps π H I K x) (s : σ) (hi : I (π s)) : I (π (x s).2) := by
  obtain ⟨cs, _, g2, g3, _⟩ := h s hi trivial
  rw [g2]
  exact g3 cs (List.prefix_refl _)

theorem kept_readDb {α β} {P : Sys → Prop} {g : Db → Res α} {f : α → C β} {s : Sys} (hs : P s) (h : ∀ a, g s.db = .ok a → P (f a s).2) : P ((readDb g >>= f) s).2 := by
  rw [readDb_bind]
  cases hg : g s.db with
  | ok a => exact h a hg
  | _ => exact hs

/-- A property that storing, moving refs and setting HEAD keep is kept by all commands. -/
theorem kept_command {I : Db → Prop} (X : Ctx) (R : Repo) (cmd : Command) (s : Sys) (hf : ∀ p c, Keeps id X.E.H I Call.isPut (putFile X.E p c))
    (hp : ∀ f n p, Keeps id X.E.H I Call.isPut (putFsItem X.E s.fs f n p)) (ht : ∀ t ps a, Keeps id X.E.H I Call.isPut (commitTree X.E.H t ps a))
    (hr : ∀ n r k, Keeps id X.E.H I (fun c => c = .reflogPush n r k) (reflogPush n r k)) (hh : ∀ n, Keeps id X.E.H I (fun c => c = .putHead n) (putHead n)) (hi : I s.db) :
    I (cmd.inRepo X R s).2.db := by
  have hsil := traced_command X R cmd
  have hcw : ∀ path to, Keeps Sys.db X.E.H I Call.isPut (compareWork X R path to) := by
    intro path to
    unfold compareWork
    exact traced_self fun s => traced_onDbCache (keeps_compare X.E s.fs hf _ _ _ _)
  cases cmd with
  | insert path =>
    have hput : Keeps Sys.db X.E.H I Call.isPut (onDb (putFsItem X.E s.fs (makeFilter X.glob R.folder) X.depth path)) := traced_onDb (hp _ _ _)
    exact keeps_end (traced_bind hput fun _ => traced_emit _) s hi
  | commit path message refname =>
    have hput : Keeps Sys.db X.E.H I (fun _ => True) (onDb (putFsItem X.E s.fs (makeFilter X.glob R.folder) X.depth (path.getD R.root))) :=
      traced_onDb (traced_mono (hp _ _ _) fun _ _ => trivial)
    have hrest : ∀ r ps, Keeps Sys.db X.E.H I (fun _ => True) (do
        let key ← onDb (putFsItem X.E s.fs (makeFilter X.glob R.folder) X.depth (path.getD R.root))
        let ck ← onDb (Snap.commitTree X.E.H key ps { message := message })
        onDb (reflogPush r none ck)) := fun r ps =>
      traced_bind hput fun key => traced_bind (traced_onDb (traced_mono (ht _ _ _) fun _ _ => trivial)) fun ck => traced_onDb (traced_mono (hr _ _ _) fun _ _ => trivial)
    exact kept_readDb (P := fun s' => I s'.db) hi fun r _ => kept_readDb (P := fun s' => I s'.db) hi fun ps _ => keeps_end (hrest r ps) s hi
  | fetch key dest => exact keeps_end (keeps_of_silent (K := fun _ => False) hsil) s hi
  | init => exact keeps_end (keeps_of_silent (K := fun _ => False) hsil) s hi
  | «show» key => exact keeps_end (keeps_of_silent (K := fun _ => False) hsil) s hi
  | log key => exact keeps_end (keeps_of_silent (K := fun _ => False) hsil) s hi
  | compare path key stat =>
    exact keeps_end (traced_bind (traced_readDb _) fun k => traced_bind (hcw _ _) fun r => traced_ite (traced_bind (traced_readDb _) fun l => traced_emit _) (traced_emit _)) s hi
  | status =>
    refine keeps_end (H := X.E.H) (K := Call.isPut) (traced_bind (traced_readDb _) fun h => traced_bind (traced_read _) fun o => ?_) s hi
    cases o with
    | none => exact traced_emit _
    | some k => exact traced_bind (traced_emit _) fun _ => traced_bind (traced_readDb _) fun c => traced_bind (hcw _ _) fun r => traced_emit _
  | checkout => exact keeps_end (keeps_of_silent (K := fun _ => False) hsil) s hi
  | checkoutHead refname =>
    exact keeps_end (H := X.E.H) (K := fun _ => True) (traced_bind (traced_readDb _) fun h => traced_bind (traced_read _) fun o => traced_bind (traced_readDb _) fun t =>
      traced_bind (traced_mono (hcw _ _) fun _ _ => trivial) fun r =>
      traced_ite (traced_bind (traced_onDb (traced_mono (hh _) fun _ _ => trivial)) fun _ => traced_emit _) (traced_bind (traced_emit _) fun _ => traced_emit _)) s hi
  | refLog refname remote => exact keeps_end (keeps_of_silent (K := fun _ => False) hsil) s hi
  | refUpdate key refname => exact keeps_end (H := X.E.H) (K := fun _ => True) (traced_bind (traced_readDb _) fun k => traced_bind (traced_readDb _) fun r => traced_onDb (traced_mono (hr _ _ _) fun c _ => trivial)) s hi
  | prettyPrint key => exact keeps_end (keeps_of_silent (K := fun _ => False) hsil) s hi
  | commitTree tree parents =>
    exact keeps_end (traced_bind (traced_readDb _) fun t => traced_bind (traced_readDb _) fun ps => traced_bind (traced_onDb (ht _ _ _)) fun ck => traced_emit _) s hi
  | reflogGet refname remote => exact keeps_end (keeps_of_silent (K := fun _ => False) hsil) s hi
  | reflogPush key refname remote => exact keeps_end (H := X.E.H) (K := fun _ => True) (traced_bind (traced_readDb _) fun k => traced_onDb (traced_mono (hr _ _ _) fun c _ => trivial)) s hi
  | walkTree key => exact keeps_end (keeps_of_silent (K := fun _ => False) hsil) s hi
  | walkFsTree path => exact keeps_end (keeps_of_silent (K := fun _ => False) hsil) s hi
  | setHead refname => exact keeps_end (traced_onDb (hh _)) s hi
  | getHead => exact keeps_end (keeps_of_silent (K := fun _ => False) hsil) s hi

/-- Commands keep the file system a tree. -/
theorem main_sane (X : Ctx) (cmd : Command) (w : World) (h : w.fs.Sane) : (mainRun X cmd w).2.2.fs.Sane := by
  by_cases hi : cmd = .init
  · subst hi
    rcases init_main X w with ⟨e, _⟩ | ⟨_, e, _⟩
    · rw [e]; exact h
    · rw [e]
      have h1 := (sane_createDirAll X.dbPath w.fs h).1
      unfold runInit
      split
      · rename_i e1; rw [e1] at h1; split <;> exact h1
      all_goals rename_i e1; rw [e1] at h1; exact h1
  · by_cases hk : (∀ k p, cmd ≠ .fetch k p) ∧ cmd ≠ .checkout ∧ cmd ≠ .init
    · rw [C65_files_kept X cmd hk w]; exact h
    · rcases mainRun_split X cmd hi w with ⟨R, q, _, e⟩ | ⟨_, e⟩ | ⟨_, e⟩
      · rw [e]
        show (cmd.inRepo X R (startOf w q)).2.fs.Sane
        cases cmd with
        | fetch key to =>
          exact kept_readDb (P := fun s' => s'.fs.Sane) h fun k _ => (sane_getFsItem _ _ _ _ w.fs h).1
        | checkout =>
          exact kept_readDb (P := fun s' => s'.fs.Sane) h fun k _ => kept_readDb (P := fun s' => s'.fs.Sane) h fun c _ => (sane_checkoutFsItem _ _ _ _ _ _ w.fs h).1
        | init => exact absurd rfl hi
        | _ => exact absurd ⟨by simp, by simp, by simp⟩ hk
      · rw [e]
        rw [runOut_eq X cmd hi fun p hp => hk ⟨by simp [hp], by simp [hp], hi⟩]
        exact h
      · rw [e]; exact h

/-- Reached from a world without any stored data, with a proper file system at each moment at which a command starts. (Commands keep it proper: `main_sane`.) -/
inductive _root_.Snap.World.Sound (H : Bytes → Key) : World → Prop where
  | fresh (w : World) (h : ∀ q, (w.dbs q).data = [] ∧ (w.dbs q).state = [] ∧ (w.dbs q).reflog = []) (hs : w.fs.Sane) : Sound H w
  | step {w w' : World} (h : Sound H w) (hst : World.Step H w w') (hs : w'.fs.Sane) : Sound H w'

theorem _root_.Snap.World.Sound.reachable {H : Bytes → Key} {w : World} (h : w.Sound H) : w.Reachable H := by
  induction h with
  | fresh w h _ => exact ⟨w, h, .refl w⟩
  | step _ hst _ ih => exact World.Reachable.step ih hst

theorem _root_.Snap.World.Sound.sane {H : Bytes → Key} {w : World} (h : w.Sound H) : w.fs.Sane := by cases h <;> assumption

theorem _root_.Snap.World.Sound.run {w : World} (X : Ctx) (h : w.Sound X.E.H) (cmd : Command) : (mainRun X cmd w).2.2.Sound X.E.H := h.step (.run X rfl cmd w) (main_sane X cmd w h.sane)

/-- A property of empty databases that commands keep holds in all these worlds. -/
theorem sound_keeps {H : Bytes → Key} {I : Db → Prop} (h0 : ∀ db : Db, db.data = [] → db.state = [] → db.reflog = [] → I db) (hs : ∀ a b, SameDb a b → I b → I a)
    (hcmd : ∀ X : Ctx, X.E.H = H → ∀ R (cmd : Command) s, s.fs.Sane → I s.db → I (cmd.inRepo X R s).2.db) (hh : ∀ n db, I db → I (putHead n db).2) {w : World} (hw : w.Sound H) (q : List Bytes) :
    I (w.dbs q) := by
  have hmain : ∀ X : Ctx, X.E.H = H → ∀ cmd w, w.fs.Sane → I (w.dbs q) → I ((mainRun X cmd w).2.2.dbs q) := by
    intro X hX cmd w hsane h
    by_cases hi : cmd = .init
    · subst hi
      rcases init_main X w with ⟨e, _⟩ | ⟨e, _, _⟩
      · rw [e]; exact h
      · rcases runInit_cases X w with ⟨e', _⟩ | ⟨q', _, e', _⟩
        · rw [e, e']; exact h
        · rw [e, e']
          by_cases hq : q = q'
          · subst hq
            simp only [World.setDb, if_true]
            exact hh _ _ h
          · simp [World.setDb, hq]; exact h
    · rcases mainRun_cases X cmd hi w with ⟨R, q', _, e⟩ | e
      · rw [e]
        by_cases hq : q = q'
        · subst hq
          by_cases hr : (∃ u, (cmd.inRepo X R (startOf w q)).1 = .ok u) ∧ commitOk (cmd.inRepo X R (startOf w q)).2.db
          · obtain ⟨⟨u, h1⟩, h2⟩ := hr
            exact hs _ _ (runIn_committed X R q cmd w u h1 h2) (hcmd X hX R cmd (startOf w q) hsane h)
          · refine hs _ _ (runIn_lost X R q cmd w ?_) h
            by_cases h1 : ∃ u, (cmd.inRepo X R (startOf w q)).1 = .ok u
            · exact Or.inr fun h2 => hr ⟨h1, h2⟩
            · exact Or.inl fun u hu => h1 ⟨u, hu⟩
        · rw [runIn_dbs X R q' cmd w q hq]; exact h
      · rw [e]; exact h
  have hstart : ∀ (st : Starts) (X : Ctx), X.E.H = H → ∀ cmd w, w.fs.Sane → I (w.dbs q) → I ((mainStart st X cmd w).2.2.dbs q) := by
    intro st X hX cmd w hsane h
    rcases mainStart_dbs st X cmd w q with e | e | ⟨R, _, e⟩
    · rw [e]; exact h
    · rw [e]; exact hmain X hX cmd _ hsane h
    · rw [e]; exact hcmd X hX R cmd (startOf w q) hsane h
  induction hw with
  | fresh w hw0 _ => exact h0 _ (hw0 q).1 (hw0 q).2.1 (hw0 q).2.2
  | step hw s _ ih =>
    cases s with
    | run X hX cmd w => exact hmain X hX cmd _ hw.sane ih
    | killed X hX cmd w w' h =>
      rcases h q with h | h
      · exact hs _ _ h ih
      · exact hs _ _ h (hmain X hX cmd _ hw.sane ih)
    | edit w w' h => exact hs _ _ (h q) ih
    | started st X hX cmd w w' h => exact hs _ _ (h q) (hstart st X hX cmd _ hw.sane ih)

/-! ### Complete trees -/

/-- Contents of files. -/
def IsData (t : ObjType) : Prop := t = .fileBlob ∨ t = .fileBlobTree
/-- Files and directories. -/
def IsItem (t : ObjType) : Prop := t = .fsItemFile ∨ t = .fsItemDir

variable {H : Bytes → Key}

/-- `k` is the key of the object, which has been hashed. -/
def Hashed (H : Bytes → Key) (o : Object) (k : Key) (db : Db) : Prop := ∃ b, o.encode = .ok b ∧ b ∈ db.hashed ∧ H b = k

/-- As `Den`, in terms of what has been hashed. -/
def DenH (H : Bytes → Key) (db : Db) : Nat → Key → Bytes → Prop
  | 0, k, c => Hashed H (blobObj c) k db
  | n + 1, k, c => ∃ ps : List (Key × Bytes), Hashed H (treeObj (ps.map Prod.fst)) k db ∧ (∀ p ∈ ps, DenH H db n p.1 p.2) ∧ c = (ps.map Prod.snd).flatten

/-- Names of different entries of a directory. -/
def ProperNames (l : List Path) : Prop := (∀ n ∈ l, okName n) ∧ l.Nodup

/-- As `Snap.Stored`, in terms of what has been hashed, with proper names. -/
def TreeH (H : Bytes → Key) (db : Db) : Nat → Key → List KNode → Prop
  | 0, _, _ => False
  | n + 1, k, ns =>
    (∃ sz ck c m o, FsItem.toObject ⟨sz, .file, [], [ck]⟩ = .ok o ∧ Hashed H o k db ∧ m ≤ 5 ∧ DenH H db m ck c ∧ ns = [⟨⟨[], some c⟩, k⟩]) ∨
    (∃ o, ∃ es : List (Bytes × Key × List KNode), FsItem.toObject ⟨es.length, .dir, es.map (·.1), es.map (·.2.1)⟩ = .ok o ∧ Hashed H o k db ∧ ProperNames (es.map (·.1)) ∧
      ns = ⟨⟨[], none⟩, k⟩ :: es.flatMap (fun e => e.2.2.map (KNode.under e.1)) ∧ ∀ e ∈ es, TreeH H db n e.2.1 e.2.2)

theorem Hashed.mono {o : Object} {k : Key} {a b : Db} (h : ∀ x ∈ a.hashed, x ∈ b.hashed) (hn : Hashed H o k a) : Hashed H o k b := by
  obtain ⟨x, h1, h2, h3⟩ := hn
  exact ⟨x, h1, h x h2, h3⟩

theorem DenH.mono {a b : Db} (h : ∀ x ∈ a.hashed, x ∈ b.hashed) {n : Nat} {k : Key} {c : Bytes} (hd : DenH H a n k c) : DenH H b n k c := by
  induction n generalizing k c with
  | zero => exact Hashed.mono h hd
  | succ n ih =>
    obtain ⟨ps, h1, h2, h3⟩ := hd
    exact ⟨ps, h1.mono h, fun p hp => ih (h2 p hp), h3⟩

theorem TreeH.mono {a b : Db} (h : ∀ x ∈ a.hashed, x ∈ b.hashed) {n : Nat} {k : Key} {ns : List KNode} (hd : TreeH H a n k ns) : TreeH H b n k ns := by
  induction n generalizing k ns with
  | zero => exact hd
  | succ n ih =>
    rcases hd with ⟨sz, ck, c, m, o, h1, h2, h3, h4, h5⟩ | ⟨o, es, h1, h2, h3, h4, h5⟩
    · exact .inl ⟨sz, ck, c, m, o, h1, h2.mono h, h3, h4.mono h, h5⟩
    · exact .inr ⟨o, es, h1, h2.mono h, h3, h4, fun e he => ih (h5 e he)⟩

theorem TreeH.deeper {db : Db} {n m : Nat} (h : n ≤ m) {k : Key} {ns : List KNode} (hd : TreeH H db n k ns) : TreeH H db m k ns := by
  induction n generalizing m k ns with
  | zero => exact hd.elim
  | succ n ih =>
    obtain ⟨m, rfl⟩ : ∃ m', m = m' + 1 := ⟨m - 1, by omega⟩
    rcases hd with hd | ⟨o, es, h1, h2, h3, h4, h5⟩
    · exact .inl hd
    · exact .inr ⟨o, es, h1, h2, h3, h4, fun e he => ih (by omega) (h5 e he)⟩

/-- Every row is a commit, or complete contents, or a complete tree. -/
def Whole (H : Bytes → Key) (db : Db) : Prop :=
  ∀ r ∈ db.data, ∃ o : Object, o.encode = .ok r.2 ∧ (IsData o.objtype → ∃ i, i ≤ 5 ∧ ∃ c, DenH H db i (H r.2) c) ∧ (IsItem o.objtype → ∃ n ns, TreeH H db n (H r.2) ns)

theorem Whole.same {a b : Db} (hd : a.data = b.data) (hh : ∀ x ∈ b.hashed, x ∈ a.hashed) (h : Whole H b) : Whole H a := by
  intro r hr
  rw [hd] at hr
  obtain ⟨o, h1, h2, h3⟩ := h r hr
  refine ⟨o, h1, fun ht => ?_, fun ht => ?_⟩
  · obtain ⟨i, hi, c, hc⟩ := h2 ht; exact ⟨i, hi, c, hc.mono hh⟩
  · obtain ⟨n, ns, hn⟩ := h3 ht; exact ⟨n, ns, hn.mono hh⟩

theorem whole_putObj (o : Object) {p : Db → Prop} {Q : Key → Db → Prop} (hp : Stable p) (hQ : ∀ d b, o.encode = .ok b → b ∈ d.hashed → p d → Q (H b) d)
    (hI : ∀ k d, Q k d → (IsData o.objtype → ∃ i, i ≤ 5 ∧ ∃ c, DenH H d i k c) ∧ (IsItem o.objtype → ∃ n ns, TreeH H d n k ns)) :
    Steps id H (Whole H) Call.isPut p (putObj H o) Q := by
  intro s hi hps
  rcases putObj_cases H o s with ⟨_, e⟩ | ⟨b, hb, hcase⟩
  · rw [e]
    refine ⟨[], by simp, rfl, ?_, by simp⟩
    intro cs hc
    have := List.prefix_nil.mp hc
    subst this
    exact hi
  · have hrun : (putObj H o s).2 = ((Call.put b).run H s).2 := by
      rw [call_put_result]
      unfold putObj
      rw [SM.bind_apply, SM.lift_apply, hb]
    have hbase : Whole H (putObj H o s).2 := by
      rcases hcase with e | e
      · rw [e]; exact Whole.same (b := s) rfl (fun x hx => List.mem_cons_of_mem _ hx) hi
      · have hq : Q (H b) (putObj H o s).2 := by
          refine hQ _ b hb (by rw [e]; simp) (hp s _ ?_ ?_ hps)
          · rw [e]; exact insertIgnore_prefix _ _ _
          · rw [e]; exact fun x hx => List.mem_cons_of_mem _ hx
        intro r hr
        have hr' : r ∈ insertIgnore s.data (H b).asDbKey b := by rw [e] at hr; exact hr
        rcases mem_insertIgnore hr' with hr' | rfl
        · have : Whole H { s with hashed := (putObj H o s).2.hashed } := Whole.same (b := s) rfl (fun x hx => by rw [e]; exact List.mem_cons_of_mem _ hx) hi
          obtain ⟨o', h1, h2, h3⟩ := this r hr'
          have hm : ∀ x ∈ ({ s with hashed := (putObj H o s).2.hashed } : Db).hashed, x ∈ (putObj H o s).2.hashed := fun _ h => h
          refine ⟨o', h1, fun ht => ?_, fun ht => ?_⟩
          · obtain ⟨i, hi, c, hc⟩ := h2 ht; exact ⟨i, hi, c, hc.mono hm⟩
          · obtain ⟨n, ns, hn⟩ := h3 ht; exact ⟨n, ns, hn.mono hm⟩
        · exact ⟨o, hb, hI _ _ hq⟩
    refine ⟨[.put b], by simp [Call.isPut], hrun, ?_, ?_⟩
    · intro cs hc
      cases cs with
      | nil => exact hi
      | cons c cs =>
        obtain ⟨t, ht⟩ := hc
        simp only [List.cons_append, List.cons.injEq] at ht
        obtain ⟨rfl, ht⟩ := ht
        obtain ⟨rfl, _⟩ := List.append_eq_nil_iff.mp ht
        show Whole H ((Call.put b).run H s).2
        rw [← hrun]
        exact hbase
    · intro k hk
      rcases hcase with e | e
      · rw [e] at hk; simp at hk
      · have hk' : H b = k := by rw [e] at hk; simpa using hk
        subst hk'
        refine hQ _ b hb (by rw [e]; simp) (hp s _ ?_ ?_ hps)
        · rw [e]; exact insertIgnore_prefix _ _ _
        · rw [e]; exact fun x hx => List.mem_cons_of_mem _ hx

theorem stable_denH (i : Nat) (k : Key) : Stable fun d => ∃ c, DenH H d i k c := fun _ _ _ h ⟨c, hc⟩ => ⟨c, hc.mono h⟩
theorem stable_treeH (k : Key) : Stable fun d => ∃ n ns, TreeH H d n k ns := fun _ _ _ h ⟨n, ns, hn⟩ => ⟨n, ns, hn.mono h⟩

theorem whole_rules : PutRules H (Whole H) (fun i k d => ∃ c, DenH H d i k c) (fun k d => ∃ n ns, TreeH H d n k ns) ProperNames where
  stableD := stable_denH
  stableF := stable_treeH
  blob c := whole_putObj (blobObj c) stable_true (fun d b hb hm _ => ⟨c, b, hb, hm, rfl⟩) fun k d h => ⟨fun _ => ⟨0, by omega, h⟩, by rintro (h | h) <;> simp [blobObj] at h⟩
  tree i hi ks := by
    refine steps_weaken (Q := fun k d => (∃ c, DenH H d (i + 1) k c)) (whole_putObj (treeObj ks) (p := fun d => ∀ k ∈ ks, ∃ c, DenH H d i k c)
      (fun a b h1 h2 hs k hk => stable_denH i k a b h1 h2 (hs k hk)) (fun d b hb hm hp => ?_) fun k d h => ⟨fun _ => ⟨i + 1, by omega, h⟩, by rintro (h | h) <;> simp [treeObj] at h⟩)
      (fun _ h => h) (fun _ h => h) (fun _ _ h => h)
    obtain ⟨l, h1, h2⟩ := choose_list hp
    exact ⟨_, l, ⟨b, by rw [show l.map Prod.fst = ks from h1]; exact hb, hm, rfl⟩, h2, rfl⟩
  file n k o ho := by
    have hty : o.objtype = .fsItemFile := by obtain ⟨_, rfl⟩ := FsItem.toObject_ok ho; rfl
    refine whole_putObj o (stable_exists fun i => stable_and (stable_const _) (stable_denH i k)) (fun d b hb hm hp => ?_) fun k d h => ⟨by rw [hty]; rintro (h | h) <;> simp at h, fun _ => h⟩
    obtain ⟨i, hi, c, hc⟩ := hp
    exact ⟨1, _, .inl ⟨n, k, c, i, o, ho, ⟨b, hb, hm, rfl⟩, hi, hc, rfl⟩⟩
  dir r o hn ho := by
    have hty : o.objtype = .fsItemDir := by obtain ⟨_, rfl⟩ := FsItem.toObject_ok ho; rfl
    refine whole_putObj o (fun a b h1 h2 hs k hk => stable_treeH k a b h1 h2 (hs k hk)) (fun d b hb hm hp => ?_) fun k d h => ⟨by rw [hty]; rintro (h | h) <;> simp at h, fun _ => h⟩
    have hp' : ∀ x ∈ r, ∃ y : Nat × List KNode, TreeH H d y.1 x.2 y.2 := fun x hx => by
      obtain ⟨n, ns, h⟩ := hp x.2 (List.mem_map_of_mem hx)
      exact ⟨(n, ns), h⟩
    obtain ⟨l, h1, h2⟩ := choose_list hp'
    have hmax : ∃ N, ∀ x ∈ l, x.2.1 ≤ N := by
      clear h1 h2
      induction l with
      | nil => exact ⟨0, by simp⟩
      | cons x l ih =>
        obtain ⟨N, hN⟩ := ih
        refine ⟨max x.2.1 N, fun y hy => ?_⟩
        rcases List.mem_cons.mp hy with rfl | hy
        · exact Nat.le_max_left _ _
        · exact Nat.le_trans (hN y hy) (Nat.le_max_right _ _)
    obtain ⟨N, hN⟩ := hmax
    subst h1
    refine ⟨N + 1, _, .inr ⟨o, l.map (fun x => (x.1.1, x.1.2, x.2.2)), ?_, ⟨b, hb, hm, rfl⟩, ?_, rfl, ?_⟩⟩
    · simpa [Function.comp_def] using ho
    · simpa [Function.comp_def] using hn
    · intro e he
      obtain ⟨x, hx, rfl⟩ := List.mem_map.mp he
      exact (h2 x hx).deeper (hN x hx)

theorem whole_commitTree (t : Key) (ps : List Key) (a : CommitAttrs) : Keeps id H (Whole H) Call.isPut (commitTree H t ps a) := by
  refine steps_liftBind fun o ho => ?_
  have hty : o.objtype = .commit := by obtain ⟨_, rfl⟩ := Commit.toObject_ok ho; rfl
  refine whole_putObj o stable_true (fun _ _ _ _ _ => trivial) fun k d _ => ?_
  rw [hty]
  constructor <;> (rintro (h | h) <;> simp at h)

theorem whole_write {c : Call} {x : M Unit} (hx : ∀ d, (x d).2 = (c.run H d).2) (hd : ∀ d, (x d).2.data = d.data) (hh : ∀ d, (x d).2.hashed = d.hashed) :
    Keeps id H (Whole H) (fun c' => c' = c) x := fun d hi _ =>
  closed_single (hx d) hi (Whole.same (hd d) (fun y hy => by rw [hh]; exact hy) hi) rfl

theorem whole_reflogPush (n : Bytes) (r : Option Bytes) (k : Key) : Keeps id H (Whole H) (fun c => c = .reflogPush n r k) (reflogPush n r k) := by
  refine whole_write (fun _ => rfl) (fun d => ?_) (fun d => ?_) <;>
  · unfold reflogPush
    rcases write_cases (fun db => { db with reflog := db.reflog ++ [⟨n, r, k.asDbKey⟩] }) d with ⟨fs, _, e⟩ | e <;> rw [e]

theorem whole_putHead (n : Bytes) : Keeps id H (Whole H) (fun c => c = .putHead n) (putHead n) := by
  refine whole_write (fun _ => rfl) (fun d => ?_) (fun d => ?_) <;>
  · unfold putHead rawPutState
    rcases write_cases (fun db => { db with state := insertReplace db.state sHEAD n }) d with ⟨fs, _, e⟩ | e <;> rw [e]

theorem namesOk_sane {fs : Fs} (h : fs.Sane) : NamesOk ProperNames fs := by
  intro p l hl l' hs
  obtain ⟨_, _, rfl⟩ := readDir_ok hl
  refine ⟨fun n hn => ?_, (names_nodup h.nodup _).sublist hs⟩
  have := mem_names.mp (hs.subset hn)
  exact h.okLoc this n (by simp)

theorem _root_.Snap.World.Sound.whole {w : World} (h : w.Sound H) (q : List Bytes) : Whole H (w.dbs q) := by
  refine sound_keeps (I := Whole H) (fun db hd _ _ r hr => by simp [hd] at hr) (fun a b hs hb => Whole.same hs.1.1 hs.2 hb) ?_ ?_ h q
  · rintro X rfl R cmd s hs hi
    exact kept_command X R cmd s (fun p c => steps_weaken (gen_putFile whole_rules p c) (fun _ h => h) (fun _ h => h) (fun _ _ _ => trivial))
      (fun f n p => steps_weaken (gen_putFsItem whole_rules (namesOk_sane hs) f n p) (fun _ h => h) (fun _ h => h) (fun _ _ _ => trivial)) whole_commitTree whole_reflogPush whole_putHead hi
  · exact fun n db hi => keeps_end (whole_putHead n) db hi

end Snap.Props
