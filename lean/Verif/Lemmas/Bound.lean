import Verif.Model.Cli
/-! The recursion bound of the model: a computation that ends within a bound does the same with any larger one. -/
namespace Snap
set_option linter.unusedSectionVars false
variable [Serde] [LawfulSerde]

/-- The same outcome unless the first one ran out of its bound. -/
def Res.Le {α} (x y : Res α) : Prop := x = .fuel ∨ x = y
/-- The same outcome and state unless the first one ran out of its bound. -/
def SM.Le {σ α} (x y : SM σ α) : Prop := ∀ s, (x s).1 = .fuel ∨ x s = y s

section
variable {σ τ α β : Type}
theorem Res.Le.refl (x : Res α) : x.Le x := .inr rfl
theorem SM.Le.refl (x : SM σ α) : x.Le x := fun _ => .inr rfl
theorem SM.Le.of_eq {x y : SM σ α} (h : x = y) : x.Le y := h ▸ .refl x
theorem Res.Le.bind {x y : Res α} {f g : α → Res β} (h : x.Le y) (hf : ∀ a, (f a).Le (g a)) : (x >>= f).Le (y >>= g) := by
  rcases h with rfl | rfl
  · exact .inl rfl
  · cases x with
    | ok a => exact hf a
    | _ => exact .inr rfl
theorem Res.Le.unwrap {x y : Res α} (h : x.Le y) : x.unwrap.Le y.unwrap := by
  rcases h with rfl | rfl
  · exact .inl rfl
  · exact .refl _
theorem SM.Le.bind {x y : SM σ α} {f g : α → SM σ β} (h : x.Le y) (hf : ∀ a, (f a).Le (g a)) : (x >>= f).Le (y >>= g) := by
  intro s
  simp only [SM.bind_apply]
  rcases h s with h | h
  · left
    rcases hx : x s with ⟨r, s'⟩
    rw [hx] at h
    simp only at h
    rw [h]
  · rw [h]
    rcases y s with ⟨r, s'⟩
    cases r with
    | ok a => exact hf a s'
    | _ => exact .inr rfl
theorem SM.Le.lift {x y : Res α} (h : x.Le y) : (SM.lift x : SM σ α).Le (SM.lift y) := fun _ => h.imp id fun h => by rw [h]
theorem SM.Le.read {f g : σ → Res α} (h : ∀ s, (f s).Le (g s)) : (SM.read f).Le (SM.read g) := fun s => (h s).imp id fun h => by rw [SM.read_apply, SM.read_apply, h]
theorem SM.Le.unwrap {x y : SM σ α} (h : x.Le y) : (SM.unwrap x).Le (SM.unwrap y) := by
  intro s
  rcases h s with h | h
  · left; show (x s).1.unwrap = _; rw [h]; rfl
  · right; show ((x s).1.unwrap, (x s).2) = ((y s).1.unwrap, (y s).2); rw [h]
theorem SM.Le.on {get : σ → τ} {set : τ → σ → σ} {x y : SM τ α} (h : x.Le y) : (SM.on get set x).Le (SM.on get set y) := by
  intro s
  rcases h (get s) with h | h
  · exact .inl h
  · right; show ((x (get s)).1, set (x (get s)).2 s) = ((y (get s)).1, set (y (get s)).2 s); rw [h]
theorem SM.Le.each {f g : α → SM σ Unit} (h : ∀ a, (f a).Le (g a)) (l : List α) : (SM.each f l).Le (SM.each g l) := by
  induction l with
  | nil => exact .refl _
  | cons a l ih => exact SM.Le.bind (h a) fun _ => ih
theorem SM.Le.mapSM {f g : α → SM σ β} (h : ∀ a, (f a).Le (g a)) (l : List α) : (Snap.mapSM f l).Le (Snap.mapSM g l) := by
  induction l with
  | nil => exact .refl _
  | cons a l ih => exact SM.Le.bind (h a) fun _ => .bind ih fun _ => .refl _
theorem Res.Le.mapRes {f g : α → Res β} (h : ∀ a, (f a).Le (g a)) (l : List α) : (Snap.mapRes f l).Le (Snap.mapRes g l) := by
  induction l with
  | nil => exact .refl _
  | cons a l ih => exact Res.Le.bind (h a) fun _ => .bind ih fun _ => .refl _
end

theorem le_readDataTo {σ} (db : Db) (sink : Bytes → SM σ Unit) {n n' : Nat} (h : n ≤ n') (k : Key) : (readDataTo db sink n k).Le (readDataTo db sink n' k) := by
  induction n generalizing n' k with
  | zero => exact fun _ => .inl rfl
  | succ n ih =>
    obtain ⟨m, rfl⟩ : ∃ m, n' = m + 1 := ⟨n' - 1, by omega⟩
    unfold readDataTo
    refine .bind (.refl _) fun o => ?_
    split
    · exact .each (fun k => ih (by omega) k) _
    · exact .refl _
    · split
      · exact ih (by omega) _
      · exact .refl _
    · exact .refl _

theorem le_putEntries (fs : Fs) (filter : Filter) {f g : Path → M Key} (h : ∀ p, (f p).Le (g p)) (path : Path) (l : List Bytes) :
    (putEntries fs filter f path l).Le (putEntries fs filter g path l) := by
  induction l with
  | nil => exact .refl _
  | cons a l ih =>
    unfold putEntries
    refine .bind (.refl _) fun b => ?_
    split
    · exact .bind (h _) fun _ => .bind ih fun _ => .refl _
    · exact ih

theorem le_putFsItem (E : Env) (fs : Fs) (filter : Filter) {n n' : Nat} (h : n ≤ n') (p : Path) : (putFsItem E fs filter n p).Le (putFsItem E fs filter n' p) := by
  induction n generalizing n' p with
  | zero => exact fun _ => .inl rfl
  | succ n ih =>
    obtain ⟨m, rfl⟩ : ∃ m, n' = m + 1 := ⟨n' - 1, by omega⟩
    unfold putFsItem
    refine .bind (.refl _) fun e => ?_
    split
    · exact .bind (.refl _) fun _ => .bind (le_putEntries fs filter (fun p => ih (by omega) p) _ _) fun _ => .refl _
    · exact .refl _
    · exact .refl _

theorem le_getFsItem (db : Db) {n n' : Nat} (h : n ≤ n') (k : Key) (p : Path) : (getFsItem db n k p).Le (getFsItem db n' k p) := by
  induction n generalizing n' k p with
  | zero => exact fun _ => .inl rfl
  | succ n ih =>
    obtain ⟨m, rfl⟩ : ∃ m, n' = m + 1 := ⟨n' - 1, by omega⟩
    unfold getFsItem
    refine .bind (.refl _) fun i => ?_
    split
    · exact .each (fun c => ih (by omega) _ _) _
    · have hr : ∀ f, (match i.children with
          | c :: _ => readDataTo db (Fs.writeAll f) n c
          | [] => SM.panic : SM Fs Unit).Le (match i.children with
          | c :: _ => readDataTo db (Fs.writeAll f) m c
          | [] => SM.panic) := by
        intro f
        split
        · exact le_readDataTo db _ (by omega) _
        · exact .refl _
      cases p.parent with
      | none => exact .bind (.refl _) hr
      | some q => exact .bind (.refl _) fun _ => .bind (.refl _) hr

theorem le_checkoutFsItem (db : Db) (filter : Filter) (iter : List Bytes → List Bytes) {n n' : Nat} (h : n ≤ n') (k : Key) (p : Path) :
    (checkoutFsItem db filter iter n k p).Le (checkoutFsItem db filter iter n' k p) := by
  induction n generalizing n' k p with
  | zero => exact fun _ => .inl rfl
  | succ n ih =>
    obtain ⟨m, rfl⟩ : ∃ m, n' = m + 1 := ⟨n' - 1, by omega⟩
    unfold checkoutFsItem
    refine .bind (.refl _) fun i => ?_
    split
    · exact .bind (.refl _) fun _ => .bind (.refl _) fun _ => .bind (.refl _) fun _ => .each (fun c => .bind (.refl _) fun _ => ih (by omega) _ _) _
    · refine .bind (.refl _) fun f => ?_
      split
      · split
        · exact le_readDataTo db _ (by omega) _
        · exact .refl _
      · exact .refl _

theorem le_extendAll {α β} {f g : β → Res (PMap α)} (h : ∀ b, (f b).Le (g b)) (m : PMap α) (l : List β) : (extendAll f m l).Le (extendAll g m l) := by
  induction l generalizing m with
  | nil => exact .refl _
  | cons b l ih => exact Res.Le.bind (h b) fun _ => ih _

theorem le_walkItemsFrom (db : Db) {n n' : Nat} (h : n ≤ n') (k : Key) (p : Path) : (walkItemsFrom db n k p).Le (walkItemsFrom db n' k p) := by
  induction n generalizing n' k p with
  | zero => exact .inl rfl
  | succ n ih =>
    obtain ⟨m, rfl⟩ : ∃ m, n' = m + 1 := ⟨n' - 1, by omega⟩
    unfold walkItemsFrom
    refine .bind (.refl _) fun i => ?_
    split
    · exact le_extendAll (fun c => ih (by omega) _ _) _ _
    · exact .refl _

theorem le_walkItems (db : Db) {n n' : Nat} (h : n ≤ n') (k : Key) : (walkItems db n k).Le (walkItems db n' k) := le_walkItemsFrom db h k []

theorem le_walkRealEntries (fs : Fs) (filter : Filter) {f g : Path → Res (PMap Bool)} (h : ∀ p, (f p).Le (g p)) (curr path : Path) (m : PMap Bool) (l : List Bytes) :
    (walkRealEntries fs filter f curr path m l).Le (walkRealEntries fs filter g curr path m l) := by
  induction l generalizing m with
  | nil => exact .refl _
  | cons a l ih =>
    unfold walkRealEntries
    refine .bind (.refl _) fun b => ?_
    split
    · exact .bind (h _) fun _ => ih _
    · exact ih _

theorem le_walkRealFrom (fs : Fs) (filter : Filter) (base : Path) {n n' : Nat} (h : n ≤ n') (p : Path) : (walkRealFrom fs filter base n p).Le (walkRealFrom fs filter base n' p) := by
  induction n generalizing n' p with
  | zero => exact .inl rfl
  | succ n ih =>
    obtain ⟨m, rfl⟩ : ∃ m, n' = m + 1 := ⟨n' - 1, by omega⟩
    unfold walkRealFrom
    refine .bind (.refl _) fun e => ?_
    split
    · exact .bind (.refl _) fun _ => le_walkRealEntries fs filter (fun p => ih (by omega) p) _ _ _ _
    · exact .refl _
    · exact .refl _

theorem le_walkReal (fs : Fs) (filter : Filter) {n n' : Nat} (h : n ≤ n') (base : Path) : (walkReal fs filter n base).Le (walkReal fs filter n' base) := le_walkRealFrom fs filter base h []

theorem le_compare (E : Env) (fs : Fs) (iter : Nat → List Path → List Path) {n n' : Nat} (h : n ≤ n') (source : Target) (to : Option Key) :
    (compare E fs iter n source to).Le (compare E fs iter n' source to) := by
  unfold compare
  refine .bind ?_ fun m => .bind ?_ fun t => .refl _
  · split
    · exact .bind (.lift (le_walkReal fs _ h _)) fun _ => .refl _
    · exact .bind (.read fun s => le_walkItems _ h _) fun _ => .refl _
  · split
    · exact .read fun s => le_walkItems _ h _
    · exact .refl _

theorem le_readAll (db : Db) {n n' : Nat} (h : n ≤ n') (k : Key) : (readAll db n k).Le (readAll db n' k) := by
  unfold readAll
  rcases le_readDataTo db (fun d => SM.modify (· ++ d)) h k [] with e | e
  · left
    have e' : (readData db n k []).1 = .fuel := e
    rcases hr : readData db n k [] with ⟨r, s⟩
    rw [hr] at e'
    simp only at e'
    rw [e']
  · right
    have e' : readData db n k [] = readData db n' k [] := e
    rw [e']

theorem le_printedStat (lib : DiffLib) (db : Db) {n n' : Nat} (h : n ≤ n') (r : DiffResult) : (printedStat lib db n r).Le (printedStat lib db n' r) := by
  have hct : ∀ {α} (isDir : α → Bool) (key : α → Option Key) (mk : α → Nat → FileStat) (l : List α), (countStat db n isDir key mk l).Le (countStat db n' isDir key mk l) := by
    intro α isDir key mk l
    unfold countStat
    refine .bind (.mapRes (fun a => ?_) _) fun _ => .refl _
    split
    · exact .bind (.bind (.unwrap (le_readAll db h _)) fun _ => .refl _) fun _ => .refl _
    · exact .refl _
  unfold printedStat lineStat
  refine .bind (.bind (hct _ _ _ _) fun _ => .bind (hct _ _ _ _) fun _ => .bind (.mapRes (fun m => ?_) _) fun _ => .refl _) fun _ => .refl _
  unfold modifiedStat
  exact .bind (.unwrap (le_readAll db h _)) fun _ => .bind (.unwrap (le_readAll db h _)) fun _ => .refl _

theorem le_createPatch (lib : DiffLib) (db : Db) {n n' : Nat} (h : n ≤ n') (r : DiffResult) : (createPatch lib db n r).Le (createPatch lib db n' r) := by
  have hfp : ∀ {α} (isDir : α → Bool) (key : α → Option Key) {f g : α → Key → Res Patch} (l : List α), (∀ a k, (f a k).Le (g a k)) → (filePatches isDir key f l).Le (filePatches isDir key g l) := by
    intro α isDir key f g l h
    unfold filePatches
    refine .bind (.mapRes (fun a => ?_) _) fun _ => .refl _
    split
    · exact .bind (h _ _) fun _ => .refl _
    · exact .refl _
  unfold createPatch
  refine .bind (hfp _ _ _ fun a k => ?_) fun _ => .bind (hfp _ _ _ fun a k => ?_) fun _ => .bind (.mapRes (fun m => ?_) _) fun _ => .refl _
  · exact .bind (.unwrap (le_readAll db h _)) fun _ => .refl _
  · exact .bind (.unwrap (le_readAll db h _)) fun _ => .refl _
  · exact .bind (.unwrap (le_readAll db h _)) fun _ => .bind (.unwrap (le_readAll db h _)) fun _ => .refl _

section
variable (E : Env) (lib : DiffLib) (fs : Fs) (iter : Nat → List Path → List Path) {n n' : Nat} (h : n ≤ n') (kind : Kind)
include h

theorem le_displayChanges (c : Commit) : (displayChanges E lib fs iter n kind c).Le (displayChanges E lib fs iter n' kind c) := by
  unfold displayChanges
  refine .bind (.refl _) fun t => .bind (.unwrap fun s => ?_) fun r => ?_
  · unfold compareDb
    simp only
    rcases le_compare E fs iter h (.database c.tree) t (s.1, {}) with e | e
    · exact .inl e
    · right; rw [e]
  · split
    · exact .bind (.read fun s => le_printedStat lib _ h _) fun _ => .refl _
    · exact .bind (.read fun s => le_createPatch lib _ h _) fun _ => .refl _

theorem le_displayObj {f f' : Nat} (hf : f ≤ f') (k : Key) : (displayObj E lib fs iter n kind f k).Le (displayObj E lib fs iter n' kind f' k) := by
  induction f generalizing f' k with
  | zero => exact fun _ => .inl rfl
  | succ f ih =>
    obtain ⟨m, rfl⟩ : ∃ m, f' = m + 1 := ⟨f' - 1, by omega⟩
    unfold displayObj
    refine .bind (.refl _) fun o => ?_
    have hr : ∀ s : Db × List Out, ((readDataTo s.1 (fun d => SM.modify (· ++ [Out.data d])) n k s.2).1 = .fuel) ∨
        readDataTo s.1 (fun d => SM.modify (· ++ [Out.data d])) n k s.2 = readDataTo s.1 (fun d => SM.modify (· ++ [Out.data d])) n' k s.2 :=
      fun s => le_readDataTo s.1 _ h k s.2
    split
    · exact fun s => (hr s).imp id fun e => by simp only [e]
    · exact fun s => (hr s).imp id fun e => by simp only [e]
    · split
      · exact ih (by omega) _
      · exact .refl _
    · exact .bind (.refl _) fun c => .bind (.refl _) fun _ => le_displayChanges E lib fs iter h kind c
    · exact .refl _
    · exact .refl _

theorem le_logLoop {f f' : Nat} (hf : f ≤ f') (c : Commit) : (logLoop E lib fs iter n kind f c).Le (logLoop E lib fs iter n' kind f' c) := by
  induction f generalizing f' c with
  | zero => exact fun _ => .inl rfl
  | succ f ih =>
    obtain ⟨m, rfl⟩ : ∃ m, f' = m + 1 := ⟨f' - 1, by omega⟩
    unfold logLoop
    split
    · exact .refl _
    · exact .bind (le_displayObj E lib fs iter h kind h _) fun _ => .bind (.refl _) fun c => ih (by omega) c

theorem le_logObj (k : Key) : (logObj E lib fs iter n kind k).Le (logObj E lib fs iter n' kind k) := by
  unfold logObj
  refine .bind (.refl _) fun o => ?_
  split
  · exact .bind (le_displayObj E lib fs iter h kind h _) fun _ => .bind (.refl _) fun c => le_logLoop E lib fs iter h kind h c
  · exact .refl _
end

/-- The same settings with another bound. -/
def Ctx.deep (X : Ctx) (n : Nat) : Ctx := { X with depth := n }

/-- A computation on the whole state that depends on the state. -/
theorem SM.Le.at {σ α} {f g : σ → SM σ α} (h : ∀ s, (f s).Le (g s)) : SM.Le (fun s => f s s : SM σ α) (fun s => g s s) := fun s => h s s

theorem le_compareWork (X : Ctx) {n : Nat} (h : X.depth ≤ n) (R : Repo) (p : Path) (to : Option Key) : (compareWork X R p to).Le (compareWork (X.deep n) R p to) :=
  fun s => (SM.Le.on (le_compare X.E s.fs X.iter h (.fileSystem p X.glob R.folder) to) : SM.Le (onDbCache _) (onDbCache _)) s

theorem le_inRepo (X : Ctx) {n : Nat} (h : X.depth ≤ n) (R : Repo) (cmd : Command) : (cmd.inRepo X R).Le (cmd.inRepo (X.deep n) R) := by
  cases cmd <;> simp only [Command.inRepo]
  case insert p => exact .bind (.at fun s => .on (le_putFsItem _ _ _ h _)) fun _ => .refl _
  case commit p m r => exact .bind (.refl _) fun _ => .bind (.refl _) fun _ => .bind (.at fun s => .on (le_putFsItem _ _ _ h _)) fun _ => .refl _
  case fetch k d => exact .bind (.refl _) fun _ => .at fun s => .on (le_getFsItem _ h _ _)
  case «show» k => exact .bind (.refl _) fun _ => .at fun s => .on (le_displayObj _ _ _ _ h _ h _)
  case log k => exact .bind (.refl _) fun _ => .at fun s => .on (le_logObj _ _ _ _ h _ _)
  case compare p k st =>
    refine .bind (.refl _) fun _ => .bind (le_compareWork X h R _ _) fun r => ?_
    cases st
    · exact .refl _
    · exact .bind (.read fun s => le_printedStat _ _ h _) fun _ => .refl _
  case status =>
    refine .bind (.refl _) fun _ => .bind (.refl _) fun k => ?_
    cases k
    · exact .refl _
    · exact .bind (.refl _) fun _ => .bind (.refl _) fun _ => .bind (le_compareWork X h R _ _) fun r => .refl _
  case checkout => exact .bind (.refl _) fun _ => .bind (.refl _) fun _ => .at fun s => .on (le_checkoutFsItem _ _ _ h _ _)
  case checkoutHead r =>
    exact .bind (.refl _) fun _ => .bind (.refl _) fun _ => .bind (.refl _) fun _ => .bind (le_compareWork X h R _ _) fun r => .refl _
  case walkTree k => exact .bind (.refl _) fun _ => .bind (.read fun s => le_walkItems _ h _) fun _ => .refl _
  case walkFsTree k => exact .bind (.read fun s => le_walkReal _ _ h _) fun _ => .refl _
  all_goals exact .refl _

end Snap
