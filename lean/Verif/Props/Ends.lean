import Verif.Lemmas.Bound
import Verif.Lemmas.TreeMore
import Verif.Props.Acyclic
import Verif.Props.Find
/-! C74: every command ends. -/
namespace Snap.Props
open Snap
set_option linter.unusedSectionVars false
variable [Serde] [LawfulSerde]

/-! ### Parts without recursion -/

theorem mapRes_fuel' {α β : Type} {f : α → Res β} (h : ∀ a, f a ≠ .fuel) (l : List α) : mapRes f l ≠ .fuel := mapRes_fuel fun a _ => h a

theorem fromDbKey_fuel (b : Bytes) : fromDbKey b ≠ .fuel := by
  unfold fromDbKey
  repeat' split
  all_goals exact nofun

theorem reflogGet_fuel (db : Db) (n : Bytes) (r : Option Bytes) : reflogGet db n r ≠ .fuel := by
  unfold reflogGet
  split
  · exact fromDbKey_fuel _
  · exact nofun

theorem reflogWalk_fuel (db : Db) (n : Bytes) (r : Option Bytes) : reflogWalk db n r ≠ .fuel := mapRes_fuel' (fun _ => fromDbKey_fuel _) _

theorem canonicalize_fuel (db : Db) (s : Keyish) : canonicalize db s ≠ .fuel := by
  have hfin : ∀ (e : Bytes) (l : List Bytes), (match l with
      | [] => .err (.canonNotFound e)
      | [k] => fromDbKey k
      | _ => do
        let strs ← mapRes fromDbKey l
        .err (.ambiguous e (strs.map (·.hash))) : Res Key) ≠ .fuel := by
    intro e l
    split
    · exact nofun
    · exact fromDbKey_fuel _
    · exact res_bind_fuel (mapRes_fuel' fromDbKey_fuel _) fun _ _ => nofun
  unfold canonicalize
  cases s with
  | key s key =>
    refine res_bind_fuel (unwrap_fuel ?_) fun k _ => fromDbKey_fuel k
    unfold rawGet
    split <;> exact nofun
  | range s a b =>
    refine res_bind_fuel (unwrap_fuel ?_) fun k _ => hfin s k
    unfold rawBetween
    split <;> exact nofun
  | reflog o r k =>
    simp only
    split
    · exact nofun
    · exact reflogGet_fuel _ _ _

theorem getHead_fuel (db : Db) : getHead db ≠ .fuel := by
  unfold getHead
  refine res_bind_fuel nofun fun a _ => ?_
  split
  · split <;> exact nofun
  · exact nofun

theorem headName_fuel (db : Db) : headName db ≠ .fuel := by
  unfold headName
  refine res_bind_fuel (getHead_fuel db) fun a _ => ?_
  split <;> exact nofun

theorem refOrHead_fuel (db : Db) (r : Option Bytes) : refOrHead db r ≠ .fuel := by
  cases r
  · exact headName_fuel db
  · exact nofun

theorem getHeadKey_fuel (db : Db) : getHeadKey db ≠ .fuel := res_bind_fuel (headName_fuel db) fun _ _ => reflogGet_fuel _ _ _

theorem keyOrHead_fuel (db : Db) (k : Option Keyish) : keyOrHead db k ≠ .fuel := by
  cases k
  · exact getHeadKey_fuel db
  · exact canonicalize_fuel db _

theorem parentsOf_fuel (db : Db) (r : Bytes) : parentsOf db r ≠ .fuel := by
  unfold parentsOf
  have := reflogGet_fuel db r none
  split
  · exact nofun
  · exact nofun
  · exact nofun
  · exact nofun
  · rename_i h; exact (this h).elim

theorem halts_write (f : Db → Db) : Halts (write f) := by
  intro s
  unfold write
  split <;> exact nofun

theorem halts_put (H : Bytes → Key) (b : Bytes) : Halts (put H b) := halts_bind (halts_modify _) fun _ _ _ _ => halts_bind (halts_write _) fun _ _ _ _ => halts_pure _

theorem halts_putObj (H : Bytes → Key) (o : Object) : Halts (putObj H o) := halts_bind (halts_lift (Object.encode_not_panic o).2) fun _ _ _ _ => halts_put H _

theorem halts_ite {σ α} {c : Prop} [Decidable c] {x y : SM σ α} (hx : Halts x) (hy : Halts y) : Halts (if c then x else y) := by split <;> assumption

theorem halts_cascade (H : Bytes → Key) (z : Nat) (os : List Nat) (kb : KeyBufs) : Halts (cascade H z os kb) := by
  induction os generalizing kb with
  | nil => exact halts_pure _
  | cons o os ih => exact halts_ite (halts_bind (halts_putObj H _) fun _ _ _ _ => ih _) (halts_pure _)

theorem halts_addChunks (H : Bytes → Key) (cs : List (Bytes × BitVec 64)) (kb : KeyBufs) : Halts (addChunks H cs kb) := by
  induction cs generalizing kb with
  | nil => exact halts_pure _
  | cons c cs ih => exact halts_bind (halts_putObj H _) fun _ _ _ _ => halts_bind (halts_cascade H _ _ _) fun _ _ _ _ => ih _

theorem halts_finishTree (H : Bytes → Key) (os : List Nat) (kb : KeyBufs) : Halts (finishTree H os kb) := by
  induction os generalizing kb with
  | nil => exact halts_putObj H _
  | cons o os ih =>
    refine halts_bind (halts_putObj H _) fun _ _ _ _ => halts_ite ?_ (ih _)
    split
    · exact halts_pure _
    · exact halts_panic

theorem halts_putData (table : UInt8 → BitVec 64) (H : Bytes → Key) (evs : List ReadEv) : Halts (putData table H evs) := by
  rw [putData_eq]
  refine halts_bind (halts_addChunks H _ _) fun kb _ _ _ => halts_ite (halts_throw _) ?_
  unfold putFinish
  exact halts_ite (halts_putObj H _) (halts_bind (halts_ite (halts_pure _) (halts_bind (halts_putObj H _) fun _ _ _ _ => halts_pure _)) fun _ _ _ _ => halts_finishTree H _ _)

theorem toObject_fuel (i : FsItem) : i.toObject ≠ .fuel := by
  unfold FsItem.toObject
  repeat' split
  all_goals exact nofun

theorem halts_putFile (E : Env) (path : Path) (c : Bytes) : Halts (putFile E path c) :=
  halts_bind (halts_putData _ _ _) fun _ _ _ _ => halts_bind (halts_lift (toObject_fuel _)) fun _ _ _ _ => halts_putObj _ _

theorem halts_commitTree (H : Bytes → Key) (t : Key) (ps : List Key) (a : CommitAttrs) : Halts (commitTree H t ps a) := by
  refine halts_bind (halts_lift ?_) fun _ _ _ _ => halts_putObj _ _
  unfold Commit.toObject
  split <;> exact nofun

theorem halts_on {σ τ α} {get : σ → τ} {set : τ → σ → σ} {x : SM τ α} (h : Halts x) : Halts (SM.on get set x) := fun s => h (get s)

/-! ### Files -/

theorem fsWalk_fuel (fs : Fs) (cur l : List Bytes) : fs.walk cur l ≠ .fuel := by
  induction l generalizing cur with
  | nil => exact nofun
  | cons s l ih =>
    unfold Fs.walk
    split
    · exact ih _
    all_goals exact nofun

theorem locate_fuel (fs : Fs) (p : Path) : fs.locate p ≠ .fuel := by
  unfold Fs.locate
  split
  · exact nofun
  · split
    · exact nofun
    · exact fsWalk_fuel _ _ _

theorem metadata_fuel (fs : Fs) (p : Path) : fs.metadata p ≠ .fuel := by
  refine res_bind_fuel (locate_fuel fs p) fun q _ => ?_
  split <;> exact nofun

theorem readDir_fuel (fs : Fs) (p : Path) : fs.readDir p ≠ .fuel := by
  refine res_bind_fuel (locate_fuel fs p) fun q _ => ?_
  split <;> exact nofun

theorem fsCanon_fuel (fs : Fs) (p : Path) : fs.canonicalize p ≠ .fuel := by
  refine res_bind_fuel (locate_fuel fs p) fun q _ => ?_
  split <;> exact nofun

theorem makeFilter_fuel (glob : Path → Bool) (db : Path) (fs : Fs) (p : Path) : makeFilter glob db fs p ≠ .fuel := by
  refine res_bind_fuel (unwrap_fuel (fsCanon_fuel _ _)) fun _ _ => res_bind_fuel (unwrap_fuel (fsCanon_fuel _ _)) fun _ _ => ?_
  split <;> exact nofun

theorem halts_call {α} (onFail : Nat → Fs → Fs) {x : SM Fs α} (h : Halts x) : Halts (Fs.call onFail x) := by
  intro fs
  unfold Fs.call
  split
  · exact nofun
  · exact h _

theorem halts_mkdir (p : Path) : Halts (Fs.mkdir p) := by
  refine halts_call _ fun fs => ?_
  split
  · exact nofun
  · split
    · exact nofun
    · have := fsWalk_fuel fs (if Path.isAbs p then [] else fs.cwd) (dropTrailing (splitSlash p))
      split
      · split <;> exact nofun
      · exact nofun
      · exact nofun
      · simp_all

theorem halts_createDirAllN (n : Nat) (p : Path) (h : p.comps.length < n) : Halts (Fs.createDirAllN n p) := by
  induction n generalizing p with
  | zero => omega
  | succ n ih =>
    intro fs
    unfold Fs.createDirAllN
    split
    · exact nofun
    · have h1 := halts_mkdir p
      split
      · exact nofun
      · split
        · exact nofun
        · rename_i q hq
          obtain ⟨c, hc⟩ := parent_comps hq
          have hlen := congrArg List.length hc
          simp only [List.length_append, List.length_singleton] at hlen
          split
          · split
            · exact nofun
            · split <;> exact nofun
          · exact ih q (by omega) _
      · split <;> exact nofun

theorem halts_createDirAll (p : Path) : Halts (Fs.createDirAll p) := halts_createDirAllN _ _ (by omega)

theorem halts_createNew (p : Path) : Halts (Fs.createNew p) := by
  refine halts_call _ fun fs => ?_
  have := locate_fuel fs p
  split
  · split
    · split <;> exact nofun
    · exact nofun
  · exact nofun
  · exact nofun
  · simp_all

theorem halts_create (p : Path) : Halts (Fs.create p) := by
  refine halts_call _ fun fs => ?_
  have := locate_fuel fs p
  split
  · split
    · split <;> exact nofun
    · exact nofun
  · exact nofun
  · exact nofun
  · simp_all

theorem halts_writeAll (q : List Bytes) (d : Bytes) : Halts (Fs.writeAll q d) := halts_call _ (halts_modify _)

theorem halts_removeDirAll (p : Path) : Halts (Fs.removeDirAll p) := by
  intro fs
  unfold Fs.removeDirAll
  have := locate_fuel fs p
  split
  · exact halts_call _ (fun fs => by split <;> exact nofun) _
  · exact nofun
  · exact nofun
  · simp_all

theorem halts_removeFile (p : Path) : Halts (Fs.removeFile p) := by
  refine halts_call _ fun fs => ?_
  have := locate_fuel fs p
  split
  · split <;> exact nofun
  · exact nofun
  · exact nofun
  · simp_all

theorem halts_getFsItem {db : Db} (hc : Closed db) (n : Nat) (k : Key) (p : Path) (hn : rank db k < n) : Halts (getFsItem db n k p) := by
  induction n generalizing k p with
  | zero => omega
  | succ n ih =>
    unfold getFsItem
    refine halts_bind (halts_lift (getItem_fuel db k)) fun i s s' hi => ?_
    have hi : getItem db k = .ok i := by simpa using congrArg Prod.fst hi
    obtain ⟨o, ho, hk⟩ := getItem_keys hi
    have hr := (rank_lt hc ho).2
    rw [← hk] at hr
    split
    · refine halts_each fun c hc' => ih _ _ ?_
      have := hr c.1 (List.of_mem_zip hc').1
      omega
    · have hrd : ∀ f, Halts (match i.children with
          | c :: _ => readDataTo db (Fs.writeAll f) n c
          | [] => SM.panic : SM Fs Unit) := by
        intro f
        split
        · rename_i c _ e
          exact halts_readDataTo hc (fun d => halts_writeAll f d) n c (by have := hr c (by rw [e]; simp); omega)
        · exact halts_panic
      cases p.parent with
      | none => exact halts_bind (halts_createNew p) fun f _ _ _ => hrd f
      | some q => exact halts_bind (halts_createDirAll q) fun _ _ _ _ => halts_bind (halts_createNew p) fun f _ _ _ => hrd f

theorem acceptedNames_fuel {filter : Filter} (hf : ∀ fs p, filter fs p ≠ .fuel) (fs : Fs) (p : Path) (l : List Bytes) : acceptedNames fs filter p l ≠ .fuel := by
  induction l with
  | nil => exact nofun
  | cons a l ih => exact res_bind_fuel (hf _ _) fun _ _ => res_bind_fuel ih fun _ _ => nofun

theorem halts_removeExtra (p : Path) (n : Bytes) : Halts (removeExtra p n) := by
  unfold removeExtra
  refine halts_ite (halts_bind (halts_read fun fs => metadata_fuel _ _) fun e _ _ _ => ?_) halts_panic
  split
  · exact halts_removeDirAll _
  · exact halts_removeFile _
  · exact halts_pure _

theorem halts_checkoutFsItem {db : Db} (hc : Closed db) {filter : Filter} (hf : ∀ fs p, filter fs p ≠ .fuel) (iter : List Bytes → List Bytes) (n : Nat) (k : Key) (p : Path)
    (hn : rank db k < n) : Halts (checkoutFsItem db filter iter n k p) := by
  induction n generalizing k p with
  | zero => omega
  | succ n ih =>
    unfold checkoutFsItem
    refine halts_bind (halts_lift (getItem_fuel db k)) fun i s s' hi => ?_
    have hi : getItem db k = .ok i := by simpa using congrArg Prod.fst hi
    obtain ⟨o, ho, hk⟩ := getItem_keys hi
    have hr := (rank_lt hc ho).2
    rw [← hk] at hr
    split
    · refine halts_bind (halts_read fun fs => readDir_fuel _ _) fun _ _ _ _ => halts_bind (halts_read fun fs => acceptedNames_fuel hf _ _ _) fun _ _ _ _ =>
        halts_bind (halts_each fun _ _ => halts_removeExtra _ _) fun _ _ _ _ => halts_each fun c hc' => halts_bind (halts_createDirAll p) fun _ _ _ _ => ih _ _ ?_
      have := hr c.1 (List.of_mem_zip hc').1
      omega
    · refine halts_bind (halts_create p) fun f _ _ _ => halts_ite ?_ halts_panic
      split
      · rename_i c _ e
        exact halts_readDataTo hc (fun d => halts_writeAll f d) n c (by have := hr c (by rw [e]; simp); omega)
      · exact halts_panic

/-! ### Walking directories -/

/-- No location is deeper. -/
def Deepest (fs : Fs) (L : Nat) : Prop := ∀ q, fs.at q ≠ none → q.length ≤ L

theorem exists_deepest (fs : Fs) : ∃ L, Deepest fs L := by
  have : ∀ l : List (List Bytes × Ent), ∃ L, ∀ e ∈ l, e.1.length ≤ L := by
    intro l
    induction l with
    | nil => exact ⟨0, by simp⟩
    | cons a l ih =>
      obtain ⟨L, h⟩ := ih
      refine ⟨max a.1.length L, fun e he => ?_⟩
      rcases List.mem_cons.mp he with rfl | he
      · omega
      · have := h e he; omega
  obtain ⟨L, h⟩ := this fs.ents
  refine ⟨L, fun q hq => ?_⟩
  by_cases h0 : q = []
  · simp [h0]
  · cases ha : fs.at q with
    | none => exact absurd ha hq
    | some e => exact h _ (at_mem h0 ha)

theorem halts_putFsItem (E : Env) {fs : Fs} (hw : fs.Wf) {L : Nat} (hL : Deepest fs L) {filter : Filter} (hf : ∀ p, filter fs p ≠ .fuel) (n : Nat) (p : Path) (h0 : 0 < n)
    (hn : fs.metadata p = .ok .dir → L + 1 < n + (loc fs.cwd p).length) : Halts (putFsItem E fs filter n p) := by
  induction n generalizing p with
  | zero => omega
  | succ n ih =>
    unfold putFsItem
    refine halts_bind (halts_lift (metadata_fuel fs p)) fun e s s' he => ?_
    have he : fs.metadata p = .ok e := by simpa using congrArg Prod.fst he
    cases e with
    | dir =>
      obtain ⟨h1, h2, h3⟩ := metadata_ok he
      have hlen := hL _ (by rw [h2]; simp)
      have hn' := hn he
      refine halts_bind (halts_lift (readDir_fuel fs p)) fun names s s' hr => ?_
      have hr : fs.readDir p = .ok names := by simpa using congrArg Prod.fst hr
      have hnames := (readDir_ok hr).2.2
      have hent : ∀ l : List Bytes, (∀ m ∈ l, okName m) → Halts (putEntries fs filter (putFsItem E fs filter n) p l) := by
        intro l hl
        induction l with
        | nil => exact halts_pure _
        | cons m l ihl =>
          have ihl := ihl fun m hm => hl m (by simp [hm])
          unfold putEntries
          refine halts_bind (halts_lift (hf _)) fun b _ _ _ => ?_
          split
          · refine halts_bind (ih _ (by omega) fun _ => ?_) fun _ _ _ _ => halts_bind ihl fun _ _ _ _ => halts_pure _
            rw [loc_join _ _ (hl m (by simp)), List.length_append, List.length_singleton]
            omega
          · exact ihl
      exact halts_bind (hent names fun m hm => hw.okNames (hnames ▸ hm)) fun _ _ _ _ => halts_bind (halts_lift (toObject_fuel _)) fun _ _ _ _ => halts_putObj _ _
    | file c md => exact halts_putFile E p c
    | special => exact halts_panic
    | broken => exact halts_panic

theorem walkRealFrom_fuel {fs : Fs} (hw : fs.Wf) {L : Nat} (hL : Deepest fs L) {filter : Filter} (hf : ∀ p, filter fs p ≠ .fuel) {base : Path} (hb : base ≠ []) (n : Nat)
    (pre : List Bytes) (hp : ∀ m ∈ pre, okComp m) (h0 : 0 < n) (hn : fs.metadata (currOf base pre) = .ok .dir → L + 1 < n + (loc fs.cwd (currOf base pre)).length) :
    walkRealFrom fs filter base n (relPath pre) ≠ .fuel := by
  induction n generalizing pre with
  | zero => omega
  | succ n ih =>
    unfold walkRealFrom
    refine res_bind_fuel (metadata_fuel fs _) fun e he => ?_
    have he : fs.metadata (currOf base pre) = .ok e := he
    cases e with
    | dir =>
      obtain ⟨h1, h2, h3⟩ := metadata_ok he
      have hlen := hL _ (by rw [h2]; simp)
      have hn' := hn he
      refine res_bind_fuel (readDir_fuel fs _) fun names hr => ?_
      have hr : fs.readDir (currOf base pre) = .ok names := hr
      have hnames := (readDir_ok hr).2.2
      have hjoin : ∀ m, okName m → loc fs.cwd (currOf base (pre ++ [m])) = loc fs.cwd (currOf base pre) ++ [m] := by
        intro m hm
        have hp' : ∀ x ∈ pre ++ [m], okComp x := by
          intro x hx
          rcases List.mem_append.mp hx with hx | hx
          · exact hp x hx
          · rw [List.mem_singleton.mp hx]; exact hm.comp
        rw [currOf_ne hp' (by simp), joins_snoc, loc_join _ _ hm]
        by_cases hpre : pre = []
        · subst hpre
          have hl' : fs.locate (Path.join base []) = .ok (loc fs.cwd (currOf base [])) := h1
          have := locate_loc (locate_of_join_empty hb hl' h2).1
          rw [this]; rfl
        · rw [currOf_ne hp hpre]
      have hent : ∀ (l : List Bytes) (M : PMap Bool), (∀ m ∈ l, okName m) → walkRealEntries fs filter (walkRealFrom fs filter base n) (Path.join base (relPath pre)) (relPath pre) M l ≠ .fuel := by
        intro l
        induction l with
        | nil => intro M _; exact nofun
        | cons m l ihl =>
          intro M hl
          have ihl := fun M => ihl M fun m hm => hl m (by simp [hm])
          unfold walkRealEntries
          refine res_bind_fuel (hf _) fun b _ => ?_
          split
          · refine res_bind_fuel ?_ fun _ _ => ihl _
            rw [← relPath_snoc]
            refine ih _ ?_ (by omega) fun _ => ?_
            · intro x hx
              rcases List.mem_append.mp hx with hx | hx
              · exact hp x hx
              · rw [List.mem_singleton.mp hx]; exact (hl m (by simp)).comp
            · rw [hjoin m (hl m (by simp)), List.length_append, List.length_singleton]
              omega
          · exact ihl _
      exact hent names _ fun m hm => hw.okNames (hnames ▸ hm)
    | file c md => exact nofun
    | special => exact nofun
    | broken => exact nofun

theorem walkReal_fuel {fs : Fs} (hw : fs.Wf) {L : Nat} (hL : Deepest fs L) {filter : Filter} (hf : ∀ p, filter fs p ≠ .fuel) (base : Path) (n : Nat) (hn : L + 1 < n) :
    walkReal fs filter n base ≠ .fuel := by
  by_cases hb : base = []
  · subst hb
    obtain ⟨m, rfl⟩ : ∃ m, n = m + 1 := ⟨n - 1, by omega⟩
    unfold walkReal walkRealFrom
    have : fs.metadata (Path.join [] []) = .err .enoent := by rfl
    simp only [this]
    exact nofun
  · exact walkRealFrom_fuel hw hL hf hb n [] (by simp) (by omega) fun _ => by omega

theorem halts_hashFsItem (E : Env) (fs : Fs) (p : Path) : Halts (hashFsItem E fs p) := by
  unfold hashFsItem
  refine halts_bind (halts_lift (metadata_fuel fs p)) fun e _ _ _ => ?_
  split
  · refine halts_bind (halts_read fun s => ?_) fun c _ _ _ => ?_
    · unfold Cache.get
      split
      · exact res_bind_fuel (fromDbKey_fuel _) fun _ _ => nofun
      · exact nofun
    · split
      · exact halts_pure _
      · exact halts_bind (fun s => halts_putFile E _ _ s.1) fun _ _ _ _ => halts_bind (fun s => nofun) fun _ _ _ _ => halts_pure _
  · exact halts_throw _

theorem compareFs_fuel (E : Env) {fs : Fs} (hw : fs.Wf) {L : Nat} (hL : Deepest fs L) (iter : Nat → List Path → List Path) (n : Nat) (path : Path) (glob : Path → Bool) (dbPath : Path)
    (t : Option Key) (s : Db × Cache) (hc : Closed s.1) (hn : s.1.data.length < n) (hn' : L + 1 < n) : (compare E fs iter n (.fileSystem path glob dbPath) t s).1 ≠ .fuel := by
  unfold compare
  have hd : ∀ (m : FromMap) x, m.isDir x ≠ .fuel := by
    intro m x
    cases m <;> · simp only [FromMap.isDir]; split <;> exact nofun
  simp only [SM.bind_apply, SM.lift]
  have h1 := walkReal_fuel hw hL (filter := makeFilter glob dbPath) (fun p => makeFilter_fuel _ _ _ _) path n hn'
  cases hA : walkReal fs (makeFilter glob dbPath) n path with
  | fuel => exact (h1 hA).elim
  | err e => exact nofun
  | panic => exact nofun
  | ok A =>
    simp only [SM.pure_apply]
    have hrest : ∀ B, Halts (do
      let added ← mapSM (addedOf E fs (.left A)) (iter 0 ((FromMap.left A).keys.filter fun x => !(B.map (·.1)).contains x))
      let deleted ← mapSM (fun x => SM.lift (deletedOf (.left A) B x)) (iter 1 ((B.map (·.1)).filter fun x => !(FromMap.left A).keys.contains x))
      let modified ← mapSM (modifiedOf E fs (.left A) path B) (iter 2 ((FromMap.left A).keys.filter fun x => (B.map (·.1)).contains x))
      pure ⟨sortBy Deleted.le deleted, sortBy Added.le added, sortBy Modified.le (modified.filterMap id)⟩ : SM (Db × Cache) DiffResult) := by
      intro B
      refine halts_bind (halts_mapSM fun x _ => ?_) fun _ _ _ _ => halts_bind (halts_mapSM fun x _ => ?_) fun _ _ _ _ => halts_bind (halts_mapSM fun x _ => ?_) fun _ _ _ _ => halts_pure _
      · unfold addedOf
        refine halts_bind ?_ fun _ _ _ _ => halts_bind (halts_lift (hd _ _)) fun _ _ _ _ => halts_pure _
        exact halts_bind (halts_lift (hd _ _)) fun _ _ _ _ => halts_ite (halts_pure _) (halts_bind (fun s => unwrap_fuel (halts_hashFsItem E fs x s)) fun _ _ _ _ => halts_pure _)
      · refine halts_lift ?_
        unfold deletedOf
        refine res_bind_fuel ?_ fun _ _ => res_bind_fuel (hd _ _) fun _ _ => nofun
        split <;> exact nofun
      · unfold modifiedOf
        refine halts_bind ?_ fun f _ _ _ => ?_
        · simp only
          split
          · exact halts_pure _
          · exact halts_bind (halts_hashFsItem E fs _) fun _ _ _ _ => halts_pure _
          · exact halts_panic
        · split
          · exact halts_pure _
          · split
            · exact halts_pure _
            · exact halts_panic
    cases t with
    | none => exact hrest [] s
    | some t =>
      have h2 := walkItems_fuel hc n hn t
      cases hB : walkItems s.1 n t with
      | fuel => exact (h2 hB).elim
      | err e => simp [SM.read, hB]
      | panic => simp [SM.read, hB]
      | ok B =>
        simp only [SM.read, hB]
        exact hrest B s

/-! ### Commands -/

theorem bind_fuel {σ α β} {x : SM σ α} {f : α → SM σ β} {s : σ} (hx : (x s).1 ≠ .fuel) (hf : ∀ a s', x s = (.ok a, s') → (f a s').1 ≠ .fuel) : ((x >>= f) s).1 ≠ .fuel := by
  rw [SM.bind_apply]
  cases h : x s with
  | mk r s' =>
    rw [h] at hx
    cases r with
    | ok a => exact hf a s' h
    | fuel => exact (hx rfl).elim
    | err e => exact nofun
    | panic => exact nofun

theorem readDb_bind_fuel {α β} {g : Db → Res α} {f : α → C β} {s : Sys} (hg : g s.db ≠ .fuel) (hf : ∀ a, g s.db = .ok a → (f a s).1 ≠ .fuel) : ((readDb g >>= f) s).1 ≠ .fuel :=
  bind_fuel hg fun a s' h => by
    obtain ⟨h1, rfl⟩ : g s.db = .ok a ∧ s = s' := by simpa [readDb, SM.read] using h
    exact hf a h1

theorem halts_emit (o : Out) : Halts (emit o) := halts_modify _

theorem halts_emitAll {α} (order : List Path → List Path) (m : PMap α) (line : Path → α → Out) : Halts (emitAll order m line) := by
  refine halts_each fun p _ => ?_
  split
  · exact halts_emit _
  · exact halts_pure _

theorem halts_onDb {α} {x : M α} (h : Halts x) : Halts (onDb x) := halts_on h

theorem compareWork_fuel (X : Ctx) (R : Repo) (path : Path) (to : Option Key) (s : Sys) (hc : Closed s.db) (hw : s.fs.Wf) {L : Nat} (hL : Deepest s.fs L) (hn : s.db.data.length < X.depth)
    (hn' : L + 1 < X.depth) : (compareWork X R path to s).1 ≠ .fuel :=
  compareFs_fuel X.E hw hL X.iter X.depth path X.glob R.folder to (s.db, s.cache) hc hn hn'

theorem closed_compareWork (X : Ctx) (R : Repo) (path : Path) (to : Option Key) (s : Sys) (hc : Closed s.db) : Closed (compareWork X R path to s).2.db := by
  obtain ⟨cs, g1, g2, g3, _⟩ := keeps_compareWork X R path to s hc trivial
  rw [g2]
  exact g3 cs (List.prefix_refl _)

theorem compare_ends (X : Ctx) (R : Repo) (p : Path) (g : Db → Res Key) (stat : Bool) (s : Sys) (hc : Closed s.db) (hw : s.fs.Wf) (hg : g s.db ≠ .fuel) : ∃ n, ∀ m, n ≤ m →
    ((do
      let k ← readDb g
      let r ← compareWork (X.deep m) R p (some k)
      if stat then do
        let l ← readDb (fun db => printedStat X.lib db m r)
        emit (.stats l)
      else emit (.result (simplify r)) : C Unit) s).1 ≠ .fuel := by
  obtain ⟨L, hL⟩ := exists_deepest s.fs
  have hcw : ∀ (m : Nat) to, s.db.data.length + L + 2 ≤ m → (compareWork (X.deep m) R p to s).1 ≠ .fuel := fun m to h =>
    compareWork_fuel (X.deep m) R p to s hc hw hL (by show _ < m; omega) (by show _ < m; omega)
  cases hr : g s.db with
  | fuel => exact (hg hr).elim
  | err e => exact ⟨0, fun m hm => readDb_bind_fuel hg fun k hk => by cases hr.symm.trans hk⟩
  | panic => exact ⟨0, fun m hm => readDb_bind_fuel hg fun k hk => by cases hr.symm.trans hk⟩
  | ok k =>
    generalize hD : s.db.data.length + L + 2 = D at hcw
    refine ⟨max D ((compareWork (X.deep D) R p (some k) s).2.db.data.length + 1), fun m hm => readDb_bind_fuel hg fun k' hk => ?_⟩
    obtain rfl : k = k' := by simpa using hr.symm.trans hk
    have hle : compareWork (X.deep D) R p (some k) s = compareWork (X.deep m) R p (some k) s :=
      (le_compareWork (X.deep D) (n := m) (by show D ≤ m; omega) R p (some k) s).resolve_left (hcw D _ (Nat.le_refl _))
    refine bind_fuel (hcw m _ (by omega)) fun r s' hs => ?_
    have hcl := closed_compareWork (X.deep m) R p (some k) s hc
    rw [hle, hs] at hm
    rw [hs] at hcl
    cases stat with
    | false => exact halts_emit _ _
    | true => exact readDb_bind_fuel (printedStat_fuel hcl (by show s'.db.data.length < m; have : s'.db.data.length + 1 ≤ m := by simp only at hm; omega
                                                               omega) _ _) fun _ _ => halts_emit _ _

theorem inRepo_ends (X : Ctx) (R : Repo) (cmd : Command) (s : Sys) (hc : Closed s.db) (hw : s.fs.Wf) : ∃ n, ∀ m, n ≤ m → (cmd.inRepo (X.deep m) R s).1 ≠ .fuel := by
  obtain ⟨L, hL⟩ := exists_deepest s.fs
  have hrank : ∀ (m : Nat) k, s.db.data.length + L + 2 ≤ m → rank s.db k < m := fun m k h => by have := rank_le s.db k; omega
  have hfil : ∀ (F : Path) (fs : Fs) p, makeFilter X.glob F fs p ≠ .fuel := fun F fs p => makeFilter_fuel _ _ _ _
  have hput : ∀ (m : Nat) p, s.db.data.length + L + 2 ≤ m → Halts (putFsItem X.E s.fs (makeFilter X.glob R.folder) m p) := fun m p h =>
    halts_putFsItem X.E hw hL (hfil _ _) m p (by omega) fun _ => by omega
  have hcw : ∀ (m : Nat) p to, s.db.data.length + L + 2 ≤ m → (compareWork (X.deep m) R p to s).1 ≠ .fuel := fun m p to h =>
    compareWork_fuel (X.deep m) R p to s hc hw hL (by show _ < m; omega) (by show _ < m; omega)
  have hex : (∀ m : Nat, s.db.data.length + L + 2 ≤ m → (cmd.inRepo (X.deep m) R s).1 ≠ .fuel) → ∃ n, ∀ m : Nat, n ≤ m → (cmd.inRepo (X.deep m) R s).1 ≠ .fuel := fun h => ⟨_, h⟩
  cases cmd with
  | insert p => exact hex fun m hm => bind_fuel (hput m p hm s.db) fun _ _ _ => halts_emit _ _
  | commit path message refname =>
    refine hex fun m hm => readDb_bind_fuel (refOrHead_fuel _ _) fun r _ => readDb_bind_fuel (parentsOf_fuel _ _) fun ps _ => bind_fuel (hput m _ hm s.db) fun k s' _ => ?_
    exact bind_fuel (halts_onDb (halts_commitTree _ _ _ _) _) fun _ _ _ => halts_onDb (halts_write _) _
  | fetch k d => exact hex fun m hm => readDb_bind_fuel (canonicalize_fuel _ _) fun k _ => halts_getFsItem hc m k d (hrank m k hm) s.fs
  | init => exact ⟨0, fun _ _ => nofun⟩
  | «show» k =>
    exact hex fun m hm => readDb_bind_fuel (keyOrHead_fuel _ _) fun k _ => (haltsAt_displayObj hc (n := m) (by omega) X.E X.lib s.fs X.iter .patch m k (hrank m k hm) s.out).1
  | log k => exact hex fun m hm => readDb_bind_fuel (keyOrHead_fuel _ _) fun k _ => (haltsAt_logObj hc (n := m) (by omega) X.E X.lib s.fs X.iter .stat k s.out).1
  | compare path key stat =>
    refine compare_ends X R (path.getD R.root) _ stat s hc hw ?_
    cases key
    · exact res_bind_fuel (getHeadKey_fuel _) fun _ _ => res_bind_fuel (fromKey_fuel _ _) fun _ _ => nofun
    · exact canonicalize_fuel _ _
  | status =>
    refine hex fun m hm => readDb_bind_fuel (headName_fuel _) fun h _ => bind_fuel (by exact nofun) fun k s' hs => ?_
    obtain rfl : s = s' := by simpa [SM.read] using congrArg Prod.snd hs
    cases k with
    | none => exact halts_emit _ _
    | some k =>
      refine bind_fuel (halts_emit _ _) fun _ s' hs => ?_
      obtain rfl : s' = { s with out := s.out ++ [.headAt h (some (k.asUserKey.take 8))] } := by simpa [emit, SM.modify] using (congrArg Prod.snd hs).symm
      refine readDb_bind_fuel (fromKey_fuel _ _) fun c _ => bind_fuel ?_ fun _ _ _ => halts_emit _ _
      exact compareWork_fuel (X.deep m) R _ _ _ hc hw hL (by show s.db.data.length < m; omega) (by show _ < m; omega)
  | checkout =>
    exact hex fun m hm => readDb_bind_fuel (getHeadKey_fuel _) fun k _ => readDb_bind_fuel (fromKey_fuel _ _) fun c _ =>
      halts_checkoutFsItem hc (hfil R.folder) X.iterNames m c.tree R.root (hrank m _ hm) s.fs
  | checkoutHead r =>
    refine hex fun m hm => readDb_bind_fuel (headName_fuel _) fun h _ => bind_fuel (by exact nofun) fun k s' hs => ?_
    obtain rfl : s = s' := by simpa [SM.read] using congrArg Prod.snd hs
    refine readDb_bind_fuel ?_ fun t _ => bind_fuel (hcw m _ _ hm) fun d _ _ => ?_
    · cases k
      · exact nofun
      · exact res_bind_fuel (fromKey_fuel _ _) fun _ _ => nofun
    · exact halts_ite (halts_bind (halts_onDb (halts_write _)) fun _ _ _ _ => halts_emit _) (halts_bind (halts_emit _) fun _ _ _ _ => halts_emit _) _
  | refLog a b =>
    exact hex fun m hm => readDb_bind_fuel (refOrHead_fuel _ _) fun _ _ => readDb_bind_fuel (reflogWalk_fuel _ _ _) fun _ _ => halts_each (fun _ _ => halts_emit _) _
  | refUpdate k r => exact hex fun m hm => readDb_bind_fuel (canonicalize_fuel _ _) fun _ _ => readDb_bind_fuel (refOrHead_fuel _ _) fun _ _ => halts_onDb (halts_write _) _
  | prettyPrint k => exact hex fun m hm => readDb_bind_fuel (canonicalize_fuel _ _) fun _ _ => readDb_bind_fuel (getObj_fuel _ _) fun _ _ => halts_emit _ _
  | commitTree t ps =>
    exact hex fun m hm => readDb_bind_fuel (canonicalize_fuel _ _) fun _ _ => readDb_bind_fuel (mapRes_fuel' (canonicalize_fuel _) _) fun _ _ =>
      bind_fuel (halts_onDb (halts_commitTree _ _ _ _) _) fun _ _ _ => halts_emit _ _
  | reflogGet a b => exact hex fun m hm => readDb_bind_fuel (reflogGet_fuel _ _ _) fun _ _ => halts_emit _ _
  | reflogPush k a b => exact hex fun m hm => readDb_bind_fuel (canonicalize_fuel _ _) fun _ _ => halts_onDb (halts_write _) _
  | walkTree k =>
    exact hex fun m hm => readDb_bind_fuel (canonicalize_fuel _ _) fun k _ => readDb_bind_fuel (walkItems_fuel hc m (by omega) k) fun _ _ => halts_emitAll _ _ _ _
  | walkFsTree p => exact hex fun m hm => bind_fuel (walkReal_fuel hw hL (filter := fun _ _ => .ok true) (fun _ => by simp) p m (by omega)) fun _ _ _ => halts_emitAll _ _ _ _
  | setHead r => exact hex fun m hm => halts_onDb (halts_write _) _
  | getHead => exact hex fun m hm => readDb_bind_fuel (getHead_fuel _) fun _ _ => halts_emit _ _

theorem findDbFolder_fuel {fs : Fs} (hw : fs.Wf) (name : Path) : findDbFolder fs name ≠ .fuel := by
  have hcwd : ∀ n ∈ fs.cwd, okComp n := by
    intro n hn
    have h0 : fs.cwd ≠ [] := by rintro h; simp [h] at hn
    exact (hw.names _ (at_mem h0 hw.cwd) n hn).comp
  unfold findDbFolder
  rw [ofComps_abs]
  rcases findFrom_spec fs name fs.cwd hcwd with ⟨a, b, _, h, _⟩ | ⟨h, _⟩ <;> rw [h] <;> exact nofun

theorem openDb_fuel (fs : Fs) (p : Path) : openDb fs p ≠ .fuel := by
  unfold openDb
  have := locate_fuel fs (Path.join p sDbFile)
  split
  · exact nofun
  · exact nofun
  · exact nofun
  · rename_i h; exact (this h).elim

theorem runInit_fuel (X : Ctx) (w : World) : (runInit X w).1 ≠ .fuel := by
  unfold runInit
  have h1 := halts_createDirAll X.dbPath w.fs
  split
  · rename_i fs _
    have h2 := openDb_fuel fs X.dbPath
    split
    · exact halts_write _ _
    · exact nofun
    · exact nofun
    · rename_i h; exact (h2 h).elim
  · exact nofun
  · exact nofun
  · rename_i h; rw [h] at h1; exact (h1 rfl).elim

theorem exitOf_fuel {r : Res Unit} {b : Bool} : exitOf r b = .fuel ↔ r = .fuel := by
  cases r <;> simp [exitOf]
  cases b <;> simp

theorem runIn_bound (X : Ctx) (R : Repo) (q : List Bytes) (cmd : Command) (w : World) {n : Nat} (hn : X.depth ≤ n) (h : (runIn X R q cmd w).1 ≠ .fuel) :
    runIn (X.deep n) R q cmd w = runIn X R q cmd w := by
  have hle := le_inRepo X hn R cmd { db := ((Conn.mk (w.dbs q) none).begin.2).view, cache := w.cache, fs := w.fs }
  rcases hle with hle | hle
  · exact (h (exitOf_fuel.mpr hle)).elim
  · simp only [runIn, Command.body, hle]

theorem runOut_bound (X : Ctx) (cmd : Command) (w : World) {n : Nat} (hn : X.depth ≤ n) (h : (runOut X cmd w).1 ≠ .fuel) : runOut (X.deep n) cmd w = runOut X cmd w := by
  have hle := le_inRepo X hn ⟨[], []⟩ cmd { db := {}, cache := w.cache, fs := w.fs }
  cases cmd
  case walkFsTree p =>
    rcases hle with hle | hle
    · exact (h (exitOf_fuel.mpr hle)).elim
    · have hle : cmdWalkFsTree X p _ = cmdWalkFsTree (X.deep n) p _ := hle
      simp only [runOut, Command.body, hle]
  all_goals rfl

/-- What a run with different bounds has in common. -/
theorem mainRun_shape (X : Ctx) (cmd : Command) (w : World) :
    (∃ r : Exit × List Out × World, (w.fs.Wf → r.1 ≠ .fuel) ∧ ∀ n, mainRun (X.deep n) cmd w = r) ∨
    (∃ R q, Opens X w R q ∧ ∀ n, mainRun (X.deep n) cmd w = runIn (X.deep n) R q cmd w) ∨ (cmd ≠ .init ∧ ∀ n, mainRun (X.deep n) cmd w = runOut (X.deep n) cmd w) := by
  by_cases hi : cmd = .init
  · subst hi
    refine .inl ⟨mainRun X .init w, fun hw => ?_, fun n => rfl⟩
    unfold mainRun
    have h1 := findDbFolder_fuel hw X.dbPath
    cases hf : findDbFolder w.fs X.dbPath with
    | fuel => exact (h1 hf).elim
    | err e => exact nofun
    | panic => exact nofun
    | ok found =>
      have hend : exitOf (runInit X w).1 (Cache.finish (runInit X w).1 w.cache w.cache).1 ≠ .fuel := fun h => runInit_fuel X w (exitOf_fuel.mp h)
      cases found with
      | none => exact hend
      | some x =>
        cases hp : Path.parent x with
        | none => simp [hp]
        | some root =>
          have h2 := openDb_fuel w.fs x
          cases hq : openDb w.fs x with
          | fuel => exact (h2 hq).elim
          | err e => simp [hp, hq]
          | panic => simp [hp, hq]
          | ok q => simpa [hp, hq] using hend
  · cases hf : findDbFolder w.fs X.dbPath with
    | fuel => exact .inl ⟨(.fuel, [], w), fun hw => (findDbFolder_fuel hw _ hf).elim, fun n => by simp [mainRun, Ctx.deep, hf]⟩
    | err e => exact .inl ⟨(.failure e, [], w), fun hw => nofun, fun n => by simp [mainRun, Ctx.deep, hf]⟩
    | panic => exact .inl ⟨(.panicked, [], w), fun hw => nofun, fun n => by simp [mainRun, Ctx.deep, hf]⟩
    | ok found =>
      cases found with
      | none =>
        refine .inr (.inr ⟨hi, fun n => ?_⟩)
        have hf' : findDbFolder w.fs (X.deep n).dbPath = .ok none := hf
        unfold mainRun
        rw [hf']
        cases cmd <;> first | exact (hi rfl).elim | rfl
      | some x =>
        cases hp : Path.parent x with
        | none => exact .inl ⟨(.panicked, [], w), fun hw => nofun, fun n => by simp [mainRun, Ctx.deep, hf, hp]⟩
        | some root =>
          have h2 := openDb_fuel w.fs x
          cases hq : openDb w.fs x with
          | fuel => exact (h2 hq).elim
          | err e => exact .inl ⟨(.failure e, [], w), fun hw => nofun, fun n => by simp [mainRun, Ctx.deep, hf, hp, hq]⟩
          | panic => exact .inl ⟨(.panicked, [], w), fun hw => nofun, fun n => by simp [mainRun, Ctx.deep, hf, hp, hq]⟩
          | ok q => exact .inr (.inl ⟨⟨x, root⟩, q, ⟨hf, hp, hq⟩, fun n => mainRun_open hi (X := X.deep n) ⟨hf, hp, hq⟩⟩)

/-- **C74** the bound plays no role: a run of the model that ends without reaching its bound on the depth of recursions is the same with every larger bound. -/
theorem C74_bound (X : Ctx) (cmd : Command) (w : World) {n : Nat} (hn : X.depth ≤ n) (h : (mainRun X cmd w).1 ≠ .fuel) : mainRun (X.deep n) cmd w = mainRun X cmd w := by
  have hX : mainRun X cmd w = mainRun (X.deep X.depth) cmd w := rfl
  rcases mainRun_shape X cmd w with ⟨r, _, hr⟩ | ⟨R, q, _, hr⟩ | ⟨_, hr⟩
  · rw [hX, hr, hr]
  · rw [hX, hr] at h
    rw [hX, hr, hr]
    exact runIn_bound (X.deep X.depth) R q cmd w hn h
  · rw [hX, hr] at h
    rw [hX, hr, hr]
    exact runOut_bound (X.deep X.depth) cmd w hn h

/-- **C74**: in a reachable world every command ends: there is one outcome, which is that of the model with every large enough bound on the depth of recursions, and it is not
"bound reached". -/
theorem C74_ends (X : Ctx) (cmd : Command) (w : World) (hreach : w.Reachable X.E.H) (hw : w.fs.Wf) :
    ∃ r : Exit × List Out × World, r.1 ≠ .fuel ∧ ∃ n, ∀ m, n ≤ m → mainRun (X.deep m) cmd w = r := by
  rcases mainRun_shape X cmd w with ⟨r, hr', hr⟩ | ⟨R, q, _, hr⟩ | ⟨_, hr⟩
  · exact ⟨r, hr' hw, 0, fun m _ => hr m⟩
  · obtain ⟨n, hn⟩ := inRepo_ends X R cmd { db := w.dbs q, cache := w.cache, fs := w.fs } (World.Reachable.closed hreach q) hw
    have h1 : (mainRun (X.deep n) cmd w).1 ≠ .fuel := by
      rw [hr]
      exact fun h => hn n (Nat.le_refl _) (exitOf_fuel.mp h)
    exact ⟨_, h1, n, fun m hm => C74_bound (X.deep n) cmd w hm h1⟩
  · obtain ⟨L, hL⟩ := exists_deepest w.fs
    have h1 : (mainRun (X.deep (L + 2)) cmd w).1 ≠ .fuel := by
      rw [hr]
      refine fun h => absurd (exitOf_fuel.mp h) ?_
      cases cmd
      case walkFsTree p _ =>
        exact bind_fuel (walkReal_fuel (fs := w.fs) hw hL (filter := fun _ _ => .ok true) (fun _ => by simp) p (L + 2) (by omega)) fun _ _ _ => halts_emitAll _ _ _ _
      all_goals exact nofun
    exact ⟨_, h1, L + 2, fun m hm => C74_bound (X.deep (L + 2)) cmd w hm h1⟩

end Snap.Props
