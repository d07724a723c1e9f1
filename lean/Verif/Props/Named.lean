import Verif.Props.Commands
/-!
C38 and C47 without the helpers `refOrHead` and `isEmpty` of the model: which ref `commit` writes to, and what a clean comparison is.
-/
namespace Snap.Props
open Snap
set_option linter.unusedSectionVars false
variable [Serde] [LawfulSerde]

namespace Spec

/-- The ref a command works on: the one given, or else the one that HEAD names. -/
def WorksOn (db : Db) (given : Option Bytes) (n : Bytes) : Prop := given = some n ∨ given = none ∧ rawGetState db sHEAD = .ok (some n) ∧ utf8 n = true

end Spec

/-- The ref used is the one given; only without one is it HEAD's. -/
theorem C38_which (db : Db) (given : Option Bytes) (n : Bytes) : refOrHead db given = .ok n ↔ Spec.WorksOn db given n := by
  unfold Spec.WorksOn
  cases given with
  | some s => simp [refOrHead]
  | none =>
    unfold refOrHead headName getHead
    cases h : rawGetState db sHEAD with
    | ok o =>
      cases o with
      | some b =>
        cases hu : utf8 b with
        | true => simp [Res.ok_bind, hu]; intro e; rw [← e]; exact hu
        | false => simp [Res.ok_bind, hu, bind, Res.bind]; intro e; rw [← e]; exact hu
      | none => simp [Res.ok_bind]
    | _ => simp [bind, Res.bind]

/-- **C38**, with the ref told: the newest entry of the given ref (without one, of HEAD's) is the new commit, its parent is what that ref had before, and no other ref and not HEAD has changed. -/
theorem C38_ref (X : Ctx) (path : Option Path) (message : Bytes) (refname : Option Bytes) (w : World) (R : Repo) (q : List Bytes) (hi : Inv X.E.H (w.dbs q))
    (h : Committed X (.commit path message refname) w R q) (hcoll : NoColl X.E.H ((mainRun X (.commit path message refname) w).2.2.dbs q)) :
    let before := w.dbs q
    let after := (mainRun X (.commit path message refname) w).2.2.dbs q
    ∃ n ck tree ps, Spec.WorksOn before refname n ∧
      reflogGet after n none = .ok ck ∧ Commit.fromKey after ck = .ok ⟨tree, ps, { message := message }⟩ ∧
      ((∃ k, reflogGet before n none = .ok k ∧ ps = [k]) ∨ (reflogGet before n none = .err .notFound ∧ ps = [])) ∧
      (∃ d, putFsItem X.E w.fs (makeFilter X.glob R.folder) X.depth (path.getD R.root) before = (.ok tree, d)) ∧
      (∀ ks, reflogWalk before n none = .ok ks → reflogWalk after n none = .ok (ck :: ks)) ∧
      (∀ m r, m ≠ n ∨ r ≠ none → reflogWalk after m r = reflogWalk before m r) ∧ after.state = before.state := by
  obtain ⟨n, ck, tree, ps, h1, h2, h3, h4, ⟨d, h5, _⟩, h6, h7, h8, _⟩ := C38_commit X path message refname w R q hi h hcoll
  exact ⟨n, ck, tree, ps, (C38_which _ _ _).mp h1, h2, h3, h4, ⟨d, h5⟩, h6, h7, h8⟩

/-- **C47**, with what is clean told: HEAD is set if the comparison has nothing added, deleted or modified, and is left alone if it has any of these. -/
theorem C47_clean (X : Ctx) (n : Bytes) (w : World) (R : Repo) (q : List Bytes) (h : Committed X (.checkoutHead n) w R q) :
    ∃ t r, HeadTree (w.dbs q) t ∧ (Snap.compare X.E w.fs X.iter X.depth (.fileSystem R.root X.glob R.folder) t (w.dbs q, w.cache)).1 = .ok r ∧
      ((r.added = [] ∧ r.deleted = [] ∧ r.modified = []) → rawGetState ((mainRun X (.checkoutHead n) w).2.2.dbs q) sHEAD = .ok (some n)) ∧
      ((r.added ≠ [] ∨ r.deleted ≠ [] ∨ r.modified ≠ []) → ((mainRun X (.checkoutHead n) w).2.2.dbs q).state = (w.dbs q).state) := by
  obtain ⟨t, r, h1, h2, h3, h4⟩ := (C47_checkout_head X n w q).2.2.2 R h
  refine ⟨t, r, h1, h2, fun ⟨a, b, c⟩ => h3 (by simp [DiffResult.isEmpty, a, b, c]), fun g => h4 ?_⟩
  unfold DiffResult.isEmpty
  rcases g with g | g | g <;> simp [g]

end Snap.Props
