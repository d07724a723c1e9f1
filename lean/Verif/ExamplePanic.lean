import Verif.ExampleWhole
import Verif.ExampleProgress
import Verif.Props.Panic
/-! C76: each of the causes occurs. -/
namespace Snap.Props
open Snap

/-- the database folder is the root directory -/
example : RootIsDb { exX with dbPath := [47] } exW3 ∧ (mainRun { exX with dbPath := [47] } .getHead exW3).1 = .panicked ∧ (mainRun { exX with dbPath := [47] } .init exW3).1 = .panicked :=
  ⟨⟨[47], by decide +kernel, by decide +kernel⟩, by decide +kernel, by decide +kernel⟩


/-- the text of a key that is not stored -/
def exAbsent : Keyish := .key [] (List.replicate 33 7)
theorem exAbsent_absent : AbsentKey (exW3.dbs exQ) exAbsent := ⟨_, _, rfl, by decide +kernel⟩
example : (mainRun exX (.prettyPrint exAbsent) exW3).1 = .panicked := (C76_keys exX _ exW3 exR exQ exOpens3 exAbsent (.inr (.inr (.inl rfl)))).mpr exAbsent_absent
example : (mainRun exX (.walkTree (.reflog [] none sMaster)) exW3).1 ≠ .panicked :=
  fun h => by obtain ⟨_, _, h, _⟩ := (C76_keys exX _ exW3 exR exQ exOpens3 _ (.inr (.inr (.inr rfl)))).mp h; simp at h
example : (mainRun exX (.commitTree (.reflog [] none sMaster) [exAbsent]) exW3).1 = .panicked ∧ (mainRun exX (.commitTree (.reflog [] none [1]) [exAbsent]) exW3).1 ≠ .panicked := by decide +kernel

/-- a dangling link, also below something; a fifo -/
example : BrokenBelow exLink (makeFilter exX.glob exR.folder) exR.root ∧ SpecialBelow exFifo (makeFilter exX.glob exR.folder) exR.root :=
  ⟨⟨[], [108], visible_nil _ _ _, by decide +kernel⟩, ⟨[[108]], visible_cons.mpr ⟨by decide +kernel, visible_nil _ _ _⟩, by decide +kernel⟩⟩
example : (mainRun exX (.insert [47, 115]) (withFs exW3 exLink)).1 = .panicked ∧ (mainRun exX (.commit none [104] none) (withFs exW3 exFifo)).1 = .panicked := by decide +kernel

/-- a file whose contents read as the description of a file: `fetch` of the key of the contents panics -/
def exFakeData : Bytes := (FsItem.toCbor ⟨0, .file, [], []⟩).enc
def exFakeFs : Fs := { exNow with ents := exNow.ents ++ [([[115], [108]], .file exFakeData ⟨9, 9⟩)] }
def exFakeW : World := (mainRun exX (.commit none [104] none) (withFs exW3 exFakeFs)).2.2
def exFakeKey : Key := match (blobObj exFakeData).encode with | .ok b => mixH b | _ => exH []
theorem exFake : FakeFile (exFakeW.dbs exQ) exFakeKey := by
  have : (match getObj (exFakeW.dbs exQ) exFakeKey with
    | .ok o => o.objtype == .fileBlob && (match FsItem.ofObject o with | .ok i => i.itemtype == .file | _ => false)
    | _ => false) = true := by decide +kernel
  cases h : getObj (exFakeW.dbs exQ) exFakeKey with
  | ok o =>
    rw [h] at this
    simp only [Bool.and_eq_true, beq_iff_eq] at this
    cases h' : FsItem.ofObject o with
    | ok i => rw [h'] at this; exact ⟨o, i, h, this.1, h', by simpa using this.2⟩
    | _ => rw [h'] at this; simp at this
  | _ => rw [h] at this; simp at this
example : (match Keyish.fromStr (exFakeKey.asUserKey.take 10) with
    | .ok key => canonicalize (exFakeW.dbs exQ) key == .ok exFakeKey && (mainRun { exX with depth := 20 } (.fetch key [47, 116]) exFakeW).1 == .panicked
    | _ => false) = true := by decide +kernel
end Snap.Props
