import Verif.Lemmas.Order
import Verif.Lemmas.PMap
/-! Lemmas about comparing two stored trees. -/
namespace Snap
set_option linter.unusedSectionVars false
variable [Serde] [LawfulSerde]

theorem mapSM_pure {σ α β} {f : α → SM σ β} {g : α → β} {l : List α} {s : σ} (h : ∀ x ∈ l, f x s = (.ok (g x), s)) : mapSM f l s = (.ok (l.map g), s) := by
  induction l with
  | nil => rfl
  | cons a l ih =>
    unfold mapSM
    rw [SM.bind_apply, h a (by simp)]
    simp only
    rw [SM.bind_apply, ih (fun x hx => h x (by simp [hx]))]
    rfl

theorem mapSM_panic {σ α β} {f : α → SM σ β} {l : List α} {s : σ} (h : ∀ x ∈ l, f x s = (.panic, s)) (h0 : l ≠ []) : mapSM f l s = (.panic, s) := by
  cases l with
  | nil => exact absurd rfl h0
  | cons a l =>
    unfold mapSM
    rw [SM.bind_apply, h a (by simp)]

/-- The added entry for a path of a stored tree. -/
def addD (A : PMap (Key × Bool)) (x : Path) : Added := match A.get x with | some b => ⟨x, b.2, some b.1⟩ | none => ⟨x, false, none⟩
/-- The modified entry, if any, for a path of both trees. -/
def modD (A B : PMap (Key × Bool)) (x : Path) : Option Modified :=
  match A.get x, B.get x with
  | some a, some b => if a.1 = b.1 then none else some ⟨x, b.1, a.1⟩
  | _, _ => none

/-- The stored tree to compare with; an empty one if there is none. -/
def toItems (db : Db) (n : Nat) : Option Key → Res (PMap (Key × Bool))
  | some t => walkItems db n t
  | none => .ok []

theorem toItems_okMap {db : Db} {n : Nat} {t : Option Key} {m : PMap (Key × Bool)} (h : toItems db n t = .ok m) : m.Ok := by
  cases t with
  | none => simp [toItems] at h; subst h; exact PMap.ok_nil
  | some t => exact walkItemsFrom_okMap h

/-- An iteration order visits every element once. -/
def IterOk (iter : Nat → List Path → List Path) : Prop := ∀ i l, (iter i l).Perm l

/-- Paths only in the first, only in the second, in both. -/
def onlyIn {α β} (A : PMap α) (B : PMap β) : List Path := (A.map (·.1)).filter fun x => !(B.map (·.1)).contains x
def inBoth {α β} (A : PMap α) (B : PMap β) : List Path := (A.map (·.1)).filter fun x => (B.map (·.1)).contains x

theorem mem_onlyIn {α β} {A : PMap α} {B : PMap β} {x : Path} : x ∈ onlyIn A B ↔ x ∈ A.map (·.1) ∧ x ∉ B.map (·.1) := by
  unfold onlyIn; rw [List.mem_filter]; simp
theorem mem_inBoth {α β} {A : PMap α} {B : PMap β} {x : Path} : x ∈ inBoth A B ↔ x ∈ A.map (·.1) ∧ x ∈ B.map (·.1) := by
  unfold inBoth; rw [List.mem_filter]; simp

theorem PMap.Ok.key_norm {α} {m : PMap α} (h : m.Ok) {x : Path} (hx : x ∈ m.map (·.1)) : x.norm = x := by
  obtain ⟨e, he, rfl⟩ := List.mem_map.mp hx; exact h.norm e he

theorem addedOf_db {E : Env} {fs : Fs} {A : PMap (Key × Bool)} (hA : A.Ok) {x : Path} (hx : x ∈ A.map (·.1)) (s : Db × Cache) :
    addedOf E fs (.right A) x s = (.ok (addD A x), s) := by
  obtain ⟨a, ha⟩ := (PMap.get_some_iff (hA.key_norm hx)).mpr hx
  unfold addedOf addD
  simp only [FromMap.isDir, ha, SM.bind_apply, SM.lift_apply]
  rfl

theorem modifiedOf_db {E : Env} {fs : Fs} {A B : PMap (Key × Bool)} (hA : A.Ok) (hB : B.Ok) {x : Path} (hx : x ∈ A.map (·.1)) (hx' : x ∈ B.map (·.1)) (base : Path) (s : Db × Cache) :
    modifiedOf E fs (.right A) base B x s = (.ok (modD A B x), s) := by
  obtain ⟨a, ha⟩ := (PMap.get_some_iff (hA.key_norm hx)).mpr hx
  obtain ⟨b, hb⟩ := (PMap.get_some_iff (hB.key_norm hx')).mpr hx'
  unfold modifiedOf modD
  simp only [ha, hb, SM.bind_apply, SM.pure_apply]

theorem deletedOf_panic {A B : PMap (Key × Bool)} (hB : B.Ok) {x : Path} (hx : x ∈ B.map (·.1)) (hn : x ∉ A.map (·.1)) : deletedOf (.right A) B x = .panic := by
  obtain ⟨b, hb⟩ := (PMap.get_some_iff (hB.key_norm hx)).mpr hx
  unfold deletedOf
  simp only [FromMap.isDir, hb, (PMap.get_none_iff (hB.key_norm hx)).mpr hn]
  rfl

/-- The comparison of two stored trees. -/
theorem compare_db {E : Env} {fs : Fs} {iter : Nat → List Path → List Path} (hi : IterOk iter) {n : Nat} {k : Key} {t : Option Key} {db : Db} {ca : Cache}
    {A B : PMap (Key × Bool)} (hA : walkItems db n k = .ok A) (hB : toItems db n t = .ok B) :
    compare E fs iter n (.database k) t (db, ca) =
      if onlyIn B A = [] then
        (.ok ⟨[], sortBy Added.le ((iter 0 (onlyIn A B)).map (addD A)), sortBy Modified.le ((iter 2 (inBoth A B)).filterMap (modD A B))⟩, (db, ca))
      else (.panic, (db, ca)) := by
  have okA := walkItemsFrom_okMap hA
  have okB := toItems_okMap hB
  have h0 : mapSM (addedOf E fs (.right A)) (iter 0 (onlyIn A B)) (db, ca) = (.ok ((iter 0 (onlyIn A B)).map (addD A)), (db, ca)) :=
    mapSM_pure fun x hx => addedOf_db okA (mem_onlyIn.mp ((hi 0 _).subset hx)).1 _
  have h2 : mapSM (modifiedOf E fs (.right A) [] B) (iter 2 (inBoth A B)) (db, ca) = (.ok ((iter 2 (inBoth A B)).map (modD A B)), (db, ca)) :=
    mapSM_pure fun x hx => by
      have := mem_inBoth.mp ((hi 2 _).subset hx)
      exact modifiedOf_db okA okB this.1 this.2 _ _
  have e : compare E fs iter n (.database k) t (db, ca) = (do
      let added ← mapSM (addedOf E fs (.right A)) (iter 0 (onlyIn A B))
      let deleted ← mapSM (fun x => SM.lift (deletedOf (.right A) B x)) (iter 1 (onlyIn B A))
      let modified ← mapSM (modifiedOf E fs (.right A) [] B) (iter 2 (inBoth A B))
      pure ⟨sortBy Deleted.le deleted, sortBy Added.le added, sortBy Modified.le (modified.filterMap id)⟩ : SM (Db × Cache) DiffResult) (db, ca) := by
    unfold compare
    simp only [SM.bind_apply, SM.read_apply, hA, SM.pure_apply]
    cases t with
    | none =>
      simp [toItems] at hB
      subst hB
      simp only [SM.pure_apply]
      rfl
    | some t =>
      simp only [toItems] at hB
      simp only [SM.read_apply, hB]
      rfl
  rw [e, SM.bind_apply, h0]
  simp only
  split
  · rename_i hd
    have h1 : iter 1 (onlyIn B A) = [] := by
      have := hi 1 (onlyIn B A)
      rw [hd] at this
      rw [hd]
      exact this.eq_nil
    rw [SM.bind_apply, h1]
    simp only [mapSM, SM.pure_apply]
    rw [SM.bind_apply, h2]
    simp only [SM.pure_apply, List.filterMap_map]
    rfl
  · rename_i hd
    rw [SM.bind_apply, mapSM_panic]
    · intro x hx
      have := mem_onlyIn.mp ((hi 1 _).subset hx)
      rw [SM.lift_apply, deletedOf_panic okB this.1 this.2]
    · intro h
      have := hi 1 (onlyIn B A)
      rw [h] at this
      exact hd this.symm.eq_nil

end Snap
