import Verif.Props.Blobs
import Verif.ExampleWhole
/-! C84: trees of chunks, balanced and not. -/
namespace Snap.Props
open Snap Spec

/-- a chunk, a tree with it, and a tree of a chunk, that tree and the chunk again -/
def exMixed : Key × Db :=
  match (do
    let a ← putObj mixH (blobObj [1, 2])
    let t ← putObj mixH (treeObj [a, a])
    let b ← putObj mixH (blobObj [3])
    putObj mixH (treeObj [b, t, a]) : M Key) {} with
  | (.ok k, db) => (k, db)
  | (_, db) => (mixH [], db)

/-- it is read from left to right -/
example : readData exMixed.2 3 exMixed.1 [] = (.ok (), [3, 1, 2, 1, 2, 1, 2]) := by decide +kernel
example : ∃ c, Holds exMixed.2 exMixed.1 c ∧ c = [3, 1, 2, 1, 2, 1, 2] := by
  obtain ⟨c, h1, h2⟩ := C84_reader_any_bound exMixed.2 exMixed.1 3 [] (by decide +kernel)
  have h : readData exMixed.2 3 exMixed.1 [] = (.ok (), [3, 1, 2, 1, 2, 1, 2]) := by decide +kernel
  rw [h] at h1
  exact ⟨c, h2, by simpa using h1.symm⟩

/-- put_data never writes such a tree: it is not balanced -/
example : ¬ ∃ n, Level exMixed.2 n exMixed.1 := by
  have hb : ∃ k t b o, getObj exMixed.2 exMixed.1 = .ok o ∧ o.objtype = .fileBlobTree ∧ o.keys = [b, t, k] ∧ getObj exMixed.2 b = .ok (blobObj [3]) ∧
      ∃ o', getObj exMixed.2 t = .ok o' ∧ o'.objtype = .fileBlobTree := by
    refine ⟨mixH (match (blobObj [1, 2]).encode with | .ok b => b | _ => []), mixH (match (treeObj (List.replicate 2 (mixH (match (blobObj [1, 2]).encode with | .ok b => b | _ => [])))).encode with | .ok b => b | _ => []),
      mixH (match (blobObj [3]).encode with | .ok b => b | _ => []), treeObj [_, _, _], ?_, rfl, rfl, ?_, treeObj (List.replicate 2 (mixH (match (blobObj [1, 2]).encode with | .ok b => b | _ => []))), ?_, rfl⟩ <;> decide +kernel
  obtain ⟨k, t, b, o, h1, h2, h3, h4, o', h5, h6⟩ := hb
  rintro ⟨n, hn⟩
  cases n with
  | zero =>
    obtain ⟨x, hx, hy⟩ := hn
    rw [h1] at hx
    simp at hx
    rw [← hx, h2] at hy
    simp at hy
  | succ n =>
    obtain ⟨x, hx, _, hy⟩ := hn
    rw [h1] at hx
    simp at hx
    subst hx
    rw [h3] at hy
    have e1 := hy b (by simp)
    have e2 := hy t (by simp)
    cases n with
    | zero =>
      obtain ⟨y, hy1, hy2⟩ := e2
      rw [h5] at hy1
      simp at hy1
      rw [← hy1, h6] at hy2
      simp at hy2
    | succ n =>
      obtain ⟨y, hy1, hy2, _⟩ := e1
      rw [h4] at hy1
      simp at hy1
      rw [← hy1] at hy2
      simp [blobObj] at hy2

/-- a balanced one: two chunks -/
def exBalanced : Key × Db :=
  match (do
    let a ← putObj mixH (blobObj [1, 2])
    putObj mixH (treeObj [a, a]) : M Key) {} with
  | (.ok k, db) => (k, db)
  | (_, db) => (mixH [], db)

example : Level exBalanced.2 1 exBalanced.1 := by
  refine ⟨treeObj (List.replicate 2 (mixH (match (blobObj [1, 2]).encode with | .ok b => b | _ => []))), by decide +kernel, rfl, fun k hk => ?_⟩
  simp [treeObj] at hk
  subst hk
  exact ⟨blobObj [1, 2], by decide +kernel, rfl⟩

/-- in a repository reached by commands: all contents -/
example (k : Key) (o : Object) (h : getObj (exW3.dbs exQ) k = .ok o) (ht : o.objtype = .fileBlob ∨ o.objtype = .fileBlobTree) : ∃ n, n ≤ 5 ∧ Level (exW3.dbs exQ) n k :=
  C84_balanced exSound3 exQ (noColl_of (by decide +kernel)) k o h ht
example : ((exW3.dbs exQ).data.any fun r => match Object.decode r.2 with | .ok o => o.objtype == .fileBlob | _ => false) = true := by decide +kernel

end Snap.Props
