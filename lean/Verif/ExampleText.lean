import Verif.Props.TextLog
import Verif.ExampleProgress
import Verif.ExampleShow
/-! Concrete cases for C80, C81 and C82. -/
namespace Snap.Props
open Snap

/-- Formatting of UTF-8 paths; the rest is not looked at. -/
def exF : Fmt := { lossy := id, debugStr := fun b => [34] ++ b ++ [34], value := fun _ => Text.lit "Map({})", patch := fun _ => [], error := fun _ => Text.lit "error" }

/-- `master`, as an argument. -/
def exMaster : Keyish := .reflog [] none sMaster

/-- The commit, printed by `debug pretty-print`: one key, nineteen bytes of data. -/
example : ∃ k o, canonicalize (exW2.dbs exQ) exMaster = .ok k ∧ getObj (exW2.dbs exQ) k = .ok o ∧ o.keys.length = 1 ∧ o.data.length = 19 ∧
    Spec.readObject (mainText exF exX (.prettyPrint exMaster) exW2) = some (ObjType.commit.name, o.keys.map fun k => (k.asUserKey, k.hash), o.data) := by
  have h : ∃ k o, canonicalize (exW2.dbs exQ) exMaster = .ok k ∧ getObj (exW2.dbs exQ) k = .ok o ∧ o.keys.length = 1 ∧ o.data.length = 19 ∧ o.objtype = .commit := by
    cases h1 : canonicalize (exW2.dbs exQ) exMaster with
    | ok k =>
      cases h2 : getObj (exW2.dbs exQ) k with
      | ok o =>
        have : (match canonicalize (exW2.dbs exQ) exMaster with
          | .ok k => match getObj (exW2.dbs exQ) k with | .ok o => decide (o.keys.length = 1 ∧ o.data.length = 19 ∧ o.objtype = .commit) | _ => false
          | _ => false) = true := by decide +kernel
        rw [h1] at this
        simp only [h2, decide_eq_true_eq] at this
        exact ⟨k, o, rfl, h2, this⟩
      | err e =>
        have : (match canonicalize (exW2.dbs exQ) exMaster with | .ok k => (getObj (exW2.dbs exQ) k).isOk | _ => false) = true := by decide +kernel
        rw [h1] at this; simp [h2, Res.isOk] at this
      | panic =>
        have : (match canonicalize (exW2.dbs exQ) exMaster with | .ok k => (getObj (exW2.dbs exQ) k).isOk | _ => false) = true := by decide +kernel
        rw [h1] at this; simp [h2, Res.isOk] at this
      | fuel =>
        have : (match canonicalize (exW2.dbs exQ) exMaster with | .ok k => (getObj (exW2.dbs exQ) k).isOk | _ => false) = true := by decide +kernel
        rw [h1] at this; simp [h2, Res.isOk] at this
    | err e => have : (canonicalize (exW2.dbs exQ) exMaster).isOk = true := by decide +kernel
               rw [h1] at this; simp [Res.isOk] at this
    | panic => have : (canonicalize (exW2.dbs exQ) exMaster).isOk = true := by decide +kernel
               rw [h1] at this; simp [Res.isOk] at this
    | fuel => have : (canonicalize (exW2.dbs exQ) exMaster).isOk = true := by decide +kernel
              rw [h1] at this; simp [Res.isOk] at this
  obtain ⟨k, o, h1, h2, h3, h4, h5⟩ := h
  refine ⟨k, o, h1, h2, h3, h4, ?_⟩
  rw [C80_command exF exX exW2 exR exQ ⟨by decide +kernel, by decide +kernel, by decide +kernel⟩ exMaster k o h1 h2, h5]

/-- A new file in an old directory and a changed file, as `status` shows them. -/
example : (Spec.lines (mainText exF exX .status (withFs exW2 exNow))).drop 1 = [Text.lit "added:", Text.lit "  d/x", Text.lit "modified:", Text.lit "  a"] := by decide +kernel
theorem exNames : ∀ rel b, Shown exNow (makeFilter exX.glob exR.folder) exR.root rel b → utf8 (relPath rel) = true ∧ (10 : UInt8) ∉ relPath rel := by
  intro rel b ⟨h0, _, h⟩
  have hat : exNow.at (loc exNow.cwd exR.root ++ rel) ≠ none := by
    rcases h with ⟨_, h⟩ | ⟨_, c, h⟩
    · rw [h]; simp
    · obtain ⟨md, h⟩ := content_some.mp h; rw [h]; simp
  have hl : loc exNow.cwd exR.root = [[115]] := by decide +kernel
  rw [hl] at hat
  have hm : ∃ e ∈ exNow.ents, e.1 = [[115]] ++ rel := by
    unfold Fs.at at hat
    split at hat
    · simp_all
    · cases hf : exNow.ents.find? (·.1 == [[115]] ++ rel) with
      | none => rw [hf] at hat; simp at hat
      | some e => exact ⟨e, List.mem_of_find?_eq_some hf, by simpa using List.find?_some hf⟩
  obtain ⟨e, he, h⟩ := hm
  have hall : ∀ e ∈ exNow.ents, utf8 (relPath (e.1.drop 1)) = true ∧ (10 : UInt8) ∉ relPath (e.1.drop 1) := by decide +kernel
  have := hall e he
  rw [h] at this
  simpa using this

/-- All hypotheses of `C81_working` hold there. -/
example : ∃ rest adds mods head, Spec.lines (mainText exF exX .status (withFs exW2 exNow)) = head :: rest ∧ Spec.readReport rest = some (adds, [], mods) ∧ (∀ p, p ∈ mods ↔
    ∃ rel c, p = relPath rel ∧ rel ≠ [] ∧ VisFile exNow (makeFilter exX.glob exR.folder) exR.root rel c ∧
      (Shown exW1.fs (makeFilter exX.glob exR.folder) exR.root rel true ∨ ∃ c', VisFile exW1.fs (makeFilter exX.glob exR.folder) exR.root rel c' ∧ c ≠ c')) := by
  obtain ⟨ck, c, h1, h2⟩ := exHead2
  have hp := (C67_working exX (fun _ l => List.Perm.refl l) (withFs exW2 exNow) exReach2' exNow_wf exR exQ exOpens2 _ exUsesNow (faithfulFs_of (by decide +kernel)) (by decide +kernel) (by decide +kernel)
    sMaster ck c h1 exW1.fs _ 9 (Nat.le_refl _) _ h2 (by decide +kernel) (by decide +kernel) exBounded exReadable (noColl_of (by decide +kernel))
    (fun rel c h => ⟨read_short_at (by decide +kernel) _ rel c h, read_short_at (by decide +kernel) _ rel c h⟩) (read_short (by decide +kernel))).1
  have hn : (mainRun exX .status (withFs exW2 exNow)).1 ≠ .panicked := by decide +kernel
  obtain ⟨rest, adds, mods, g1, g2, _, g3⟩ := C81_working exF (fun _ _ => rfl) exX (fun _ l => List.Perm.refl l) (withFs exW2 exNow) exReach2' exNow_wf exR exQ exOpens2 _ exUsesNow
    (faithfulFs_of (by decide +kernel)) (by decide +kernel) (by decide +kernel)
    sMaster ck c h1 exW1.fs _ 9 (Nat.le_refl _) _ h2 (by decide +kernel) (by decide +kernel) exBounded exReadable (noColl_of (by decide +kernel))
    (fun rel c h => ⟨read_short_at (by decide +kernel) _ rel c h, read_short_at (by decide +kernel) _ rel c h⟩) (read_short (by decide +kernel))
    (fun rel b hs => Classical.not_forall_not.mp fun hno => hn (hp.mpr ⟨rel, b, hs, hno⟩)) exNames (by decide)
  exact ⟨rest, adds, mods, _, g1, g2, g3⟩

/-- A file called `x`, line break, `  y` prints as the two files `x` and `y` do. -/
example : Text.report exF { added := [⟨Text.lit "x\n  y", false, mixH []⟩], deleted := [], modified := [] } = Text.report exF { added := [⟨[120], false, mixH []⟩, ⟨[121], false, mixH []⟩], deleted := [], modified := [] } := by decide +kernel

theorem exReachV2 : World.Reachable mixH exV2 :=
  ⟨exW exF1, fun _ => ⟨rfl, rfl, rfl⟩, ((((World.Steps.refl _).tail (.run exX rfl .init _)).tail (.run exX rfl (.commit none [104, 105] none) _)).tail
    (.edit _ (withFs exV1 exF2) fun _ => SameDb.refl _)).tail (.run exX rfl (.commit none [104, 111] none) _)⟩

/-- Two commits, as `log` shows them; all hypotheses of `C82_log` hold. -/
example : ∃ (k : Key) (ks : List Key) (es : List (Key × Bytes × List FileStat)), es.map (·.1) = k :: ks ∧ mainText exF exX (.log none) exV2 = es.flatMap (entryText exF) := by
  obtain ⟨k, ks, es, _, _, h1, _, h2, _⟩ := C82_log exF exX exV2 exReachV2 exR exQ ⟨by decide +kernel, by decide +kernel, by decide +kernel⟩ none (by decide +kernel)
  exact ⟨k, ks, es, h1, h2⟩
/-- Reading that text back gives both messages, the later first, and the changed file of each. -/
example : ((Spec.readLog (mainText exF exX (.log none) exV2)).getD []).map (fun e => (e.2.1, e.2.2.map (·.1))) = [([104, 111], [[97]]), ([104, 105], [[97]])] := by decide +kernel
/-- C80: 45 bytes are printed on three lines. -/
example : ∃ front back, Text.prettyPrint exF ⟨List.replicate 45 7, [], .fileBlob⟩ = front ++ Text.lit "--data--\n" ++
    (Text.lit "0707070707070707070707070707070707070707\n0707070707070707070707070707070707070707\n0707070707\n") ++ Text.lit "-/data--\n" ++ back := by
  obtain ⟨f, b, h⟩ := C80_lines exF ⟨List.replicate 45 7, [], .fileBlob⟩
  refine ⟨f, b, ?_⟩
  rw [h]
  congr 3
  decide +kernel

end Snap.Props
