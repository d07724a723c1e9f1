import Verif.ExampleText
import Verif.ExampleFetchable
import Verif.Props.TextList
/-! Concrete cases meeting the hypotheses of C100. -/
namespace Snap.Props
open Snap

theorem exF_quote : ∀ p, (10 : UInt8) ∉ p → (10 : UInt8) ∉ exF.debugStr p := by
  intro p hp
  show (10 : UInt8) ∉ [34] ++ p ++ [34]
  simp [hp]
/-- quoting as `{:?}` does it with line breaks: they are escaped -/
def exFq : Fmt := { exF with debugStr := fun b => [34] ++ b.flatMap (fun c => if c = 10 then [92, 110] else if c = 34 ∨ c = 92 then [92, c] else [c]) ++ [34] }
theorem exFq_ok : ∀ p, (10 : UInt8) ∉ exFq.debugStr p := by
  intro p
  show (10 : UInt8) ∉ [34] ++ p.flatMap _ ++ [34]
  simp only [List.mem_append, not_or, List.mem_flatMap, not_exists, not_and]
  refine ⟨⟨by decide, fun c _ => ?_⟩, by decide⟩
  split
  · decide
  · rename_i h
    split
    · simp; exact fun e => h e.symm
    · simp; exact fun e => h e.symm

/-- the log of `master` after one commit: one line, numbered 1 -/
example : ∃ ks, reflogWalk (exG2.dbs exGQ) sMaster none = .ok ks ∧ ks.length = 1 ∧
    Spec.readRefLog (mainText exF exG' (.refLog (some sMaster) none) (withFs exG2 exRepo2)) = some (ks.zipIdx.map fun e => (ks.length - e.2, e.1.asUserKey)) := by
  have hl : (match reflogWalk (exG2.dbs exGQ) sMaster none with | .ok ks => ks.length | _ => 0) = 1 := by decide +kernel
  obtain ⟨ks, h1, h2⟩ := C100_ref_log exF exGSound2.reachable exGOpens2 (fun fs h => by revert h; rw [show (withFs exG2 exRepo2).cache.faults = [] by decide +kernel]; simp) sMaster none
  rw [show reflogWalk (exG2.dbs exGQ) sMaster none = .ok ks from h1] at hl
  exact ⟨ks, h1, hl, h2⟩

/-- the committed tree, five lines -/
example : ∃ l : List (List Bytes × Key × Bool), l.length = 5 ∧
    Spec.readItems (mainText exFq exG' (.walkTree exTreeKey) (withFs exG2 exRepo2)) = some (l.map fun x => (exFq.debugStr (relPath x.1), x.2.1.hash, x.2.2)) := by
  obtain ⟨k, h1, h2, h3⟩ := exFetchKey
  obtain ⟨l, _, _, h⟩ := C100_walk_tree exFq exFq_ok exG' (fun _ l => List.Perm.refl l) (withFs exG2 exRepo2) exGSound2 exGR exGQ (noColl_of (by decide +kernel)) exGOpens2 (by decide +kernel)
    (by decide +kernel) exTreeKey k h1 h2
  have : (Spec.readItems (mainText exFq exG' (.walkTree exTreeKey) (withFs exG2 exRepo2))).map List.length = some 5 := by decide +kernel
  rw [h] at this
  simp at this
  exact ⟨l, this, h⟩

example : Spec.lines (mainText exFq exG' (.walkFsTree [46]) (withFs exG2 exRepo2)) =
    [Text.lit "\"a\", false", Text.lit "\"e\", true", Text.lit "\"y\", true", Text.lit "\"z\", false", Text.lit "\"d\", true", Text.lit "\"d/b\", false"] := by decide +kernel
example : ∃ l : List (List Bytes × Bool), l.length = 6 ∧
    Spec.readFsItems (mainText exFq exG' (.walkFsTree [46]) (withFs exG2 exRepo2)) = some (l.map fun x => (exFq.debugStr (relPath x.1), x.2)) := by
  have hd : ∀ rel, exRepo2.at (loc exRepo2.cwd [46] ++ rel) ≠ none → rel.length < exG'.depth := by
    intro rel h
    have hm : ∃ e ∈ exRepo2.ents, e.1 = loc exRepo2.cwd [46] ++ rel := by
      unfold Fs.at at h
      split at h
      · rename_i h0; simp [show loc exRepo2.cwd [46] = exGuardDirs from by decide +kernel, exGuardDirs] at h0
      · cases hf : exRepo2.ents.find? (fun e => e.1 == loc exRepo2.cwd [46] ++ rel) with
        | none => rw [hf] at h; simp at h
        | some e => exact ⟨e, List.mem_of_find?_eq_some hf, by simpa using List.find?_some hf⟩
    obtain ⟨e, he, heq⟩ := hm
    have hl : exRepo2.ents.all (fun e => decide (e.1.length < 20)) = true := by decide +kernel
    have := List.all_eq_true.mp hl e he
    rw [heq] at this
    simp at this
    show rel.length < 20
    omega
  obtain ⟨l, _, _, h⟩ := C100_walk_fs exFq exFq_ok exG' (fun _ l => List.Perm.refl l) (withFs exG2 exRepo2) exRepo2_wf (.inl ⟨_, _, exGOpens2⟩) (by decide +kernel) [46] hd (by decide +kernel)
  have : (Spec.readFsItems (mainText exFq exG' (.walkFsTree [46]) (withFs exG2 exRepo2))).map List.length = some 6 := by decide +kernel
  rw [h] at this
  simp at this
  exact ⟨l, this, h⟩

/-- `insert a` -/
example : ∃ k : Key, Spec.readInserted (mainText exF exG' (.insert [97]) (withFs exG2 exRepo2)) = some k.asUserKey := by
  have h0 : (match (withFs exG2 exRepo2).printed exG' (.insert [97]) with | [.key _] => true | _ => false) = true := by decide +kernel
  split at h0
  · rename_i k hk
    exact ⟨k, C100_insert exF exG' [97] (withFs exG2 exRepo2) (by decide +kernel) k hk⟩
  · simp at h0

/-- a key whose beginning is that of one row only -/
theorem lone_of {db : Db} {k k' : Key} {short : Bytes} (h : (db.data.filter fun r => short.isPrefixOf (98 :: toBase32 r.1.tail)).map (·.1) = [k.asDbKey]) (hk : Stored db k')
    (hp : short <+: k'.asUserKey) : k' = k := by
  obtain ⟨v, hv⟩ := hk
  have hm := assoc_some_mem (get_eq_ok.mp hv)
  have : k'.asDbKey ∈ (db.data.filter fun r => short.isPrefixOf (98 :: toBase32 r.1.tail)).map (·.1) :=
    List.mem_map.mpr ⟨_, List.mem_filter.mpr ⟨hm, List.isPrefixOf_iff_prefix.mpr hp⟩, rfl⟩
  rw [h, List.mem_singleton] at this
  exact asUserKey_inj (congrArg (fun b : Bytes => 98 :: toBase32 b.tail) this)

/-- `status` where files were changed; the shown beginning of the key belongs to nothing else that is stored -/
example : ∃ short key, Keyish.fromStr short = .ok key ∧ mainRun exX (.show (some key)) (withFs exW2 exNow) = mainRun exX (.show none) (withFs exW2 exNow) := by
  obtain ⟨ck, c, h1, h2⟩ := exHead2
  obtain ⟨l, ls, short, key, g1, g2, hs, g3, g4, _⟩ := C100_status exF exX (withFs exW2 exNow) exReach2' exR exQ exOpens2 sMaster (by decide +kernel) ck c h1 (by decide +kernel)
  refine ⟨short, key, g3, (g4 fun k' hk' hp => ?_).1⟩
  have hu : headThat (exW2.dbs exQ) (fun _ => match getHeadKey (exW2.dbs exQ) with
    | .ok ck => decide (((exW2.dbs exQ).data.filter fun r => (ck.asUserKey.take 8).isPrefixOf (98 :: toBase32 r.1.tail)).map (·.1) = [ck.asDbKey])
    | _ => false) = true := by decide +kernel
  obtain ⟨ck', c', h3, _, h4⟩ := headThat_ok hu
  rw [h3] at h4
  have hck : ck' = ck := by
    have : getHeadKey (exW2.dbs exQ) = .ok ck := by
      unfold getHeadKey
      rw [headName_eq h1.1]
      exact h1.2.1
    rw [h3] at this
    exact Res.ok.inj this
  subst hck
  refine lone_of (short := short) ?_ hk' hp
  rw [hs]
  exact of_decide_eq_true h4
end Snap.Props
