import Verif.Props.LinkStore
/-!
C96 for the whole program: what its commands do to a disk with links.
-/
namespace Snap.Props
open Snap
set_option linter.unusedSectionVars false
variable [Serde] [LawfulSerde]

theorem walkFs_disk (X : Ctx) (path : Path) (s : Sys × Disk) : (walkFsLinked X path s).2.2 = s.2 := by
  unfold walkFsLinked
  rw [SM.bind_apply]
  generalize hr : SM.read _ s = p
  have hp : p.2 = s := by rw [← hr]; rfl
  obtain ⟨r, s'⟩ := p
  simp only at hp
  subst hp
  cases r <;> rfl

/-- Without a repository no command but `init` changes the disk. -/
theorem linked_out {X : Ctx} {cmd : Command} (hi : cmd ≠ .init) {w : LinkWorld} (hno : ¬ ∃ R q, OpensLinked X w R q) : (mainLinked X cmd w).2.2.disk = w.disk := by
  have hb : (cmd.linkedOut X ({ db := {}, cache := w.cache }, w.disk)).2.2 = w.disk := by
    cases cmd with
    | walkFsTree path => exact walkFs_disk X path _
    | _ => rfl
  unfold mainLinked
  cases hf : findLinked w.disk.toLinkFs X.dbPath with
  | ok found =>
    cases found with
    | none => cases cmd <;> first | exact hb | exact absurd rfl hi
    | some x =>
      simp only
      cases hp : Path.parent x with
      | none => rfl
      | some root =>
        simp only
        cases hq : openLinked w.disk.toLinkFs x with
        | ok q => exact (hno ⟨⟨x, root⟩, q, hf, hp, hq⟩).elim
        | _ => rfl
  | _ => rfl

theorem linked_disk {X : Ctx} {cmd : Command} (hi : cmd ≠ .init) {w : LinkWorld} {R : Repo} {q : List Bytes} (ho : OpensLinked X w R q) :
    (mainLinked X cmd w).2.2.disk = (cmd.linked X R (startLinked w q)).2.2 := by
  rw [mainLinked_open hi ho]
  rfl

/-- **C96** (other commands): all but `fetch`, `checkout` and `init` leave the disk as it is, links included, whatever becomes of them. -/
theorem C96_others (X : Ctx) (cmd : Command) (hi : cmd ≠ .init) (hf : ∀ k p, cmd ≠ .fetch k p) (hc : cmd ≠ .checkout) (w : LinkWorld) : (mainLinked X cmd w).2.2.disk = w.disk := by
  by_cases ho : ∃ R q, OpensLinked X w R q
  · obtain ⟨R, q, ho⟩ := ho
    rw [linked_disk hi ho]
    cases cmd with
    | init => exact (hi rfl).elim
    | fetch k p => exact (hf k p rfl).elim
    | checkout => exact (hc rfl).elim
    | walkFsTree path => exact walkFs_disk X path _
    | _ => rfl
  · exact linked_out hi ho

/-- The program's `fetch`. -/
theorem fetch_disk {X : Ctx} {key : Keyish} {dest : Path} {w : LinkWorld} {R : Repo} {q : List Bytes} (ho : OpensLinked X w R q) :
    ((∀ k, canonicalize (w.dbs q) key ≠ .ok k) ∧ (mainLinked X (.fetch key dest) w).2.2.disk = w.disk ∧ (mainLinked X (.fetch key dest) w).1 ≠ .success) ∨
    ∃ k, canonicalize (w.dbs q) key = .ok k ∧ (mainLinked X (.fetch key dest) w).2.2.disk = (getLinked (w.dbs q) X.depth k dest w.disk).2 ∧
      ((mainLinked X (.fetch key dest) w).1 = .success → (getLinked (w.dbs q) X.depth k dest w.disk).1 = .ok ()) := by
  have hx : (mainLinked X (.fetch key dest) w).1 = .success → ((Command.fetch key dest).linked X R (startLinked w q)).1 = .ok () := by
    rw [mainLinked_open (by simp) ho]
    show exitOf ((Command.fetch key dest).linked X R (startLinked w q)).1 _ = _ → _
    cases ((Command.fetch key dest).linked X R (startLinked w q)).1 <;> simp [exitOf]
  rw [linked_disk (by simp) ho]
  cases hk : canonicalize (w.dbs q) key with
  | ok k =>
    have e : (Command.fetch key dest).linked X R (startLinked w q) = ((getLinked (w.dbs q) X.depth k dest w.disk).1, ((startLinked w q).1, (getLinked (w.dbs q) X.depth k dest w.disk).2)) := by
      show fetchLinked X key dest _ = _
      unfold fetchLinked
      erw [SM.bind_apply]
      simp only [SM.fst, readDb, SM.read, startLinked, hk, SM.snd]
    rw [e] at hx ⊢
    exact .inr ⟨k, rfl, rfl, hx⟩
  | _ =>
    have e : ((Command.fetch key dest).linked X R (startLinked w q)).2.2 = w.disk ∧ ((Command.fetch key dest).linked X R (startLinked w q)).1 ≠ .ok () := by
      have e' : (Command.fetch key dest).linked X R (startLinked w q) = ((canonicalize (w.dbs q) key).bind fun _ => .err .io, startLinked w q) := by
        show fetchLinked X key dest _ = _
        unfold fetchLinked
        erw [SM.bind_apply]
        simp only [SM.fst, readDb, SM.read, startLinked, hk, Res.bind]
      rw [e', hk]
      exact ⟨rfl, by simp [Res.bind]⟩
    exact .inl ⟨by simp, e.1, fun h => e.2 (hx h)⟩

/-- **C96** (`fetch`, the whole program): whatever becomes of it, it only adds directories and files. -/
theorem C96_fetch (X : Ctx) (key : Keyish) (dest : Path) (w : LinkWorld) : Spec.Adds w.disk (mainLinked X (.fetch key dest) w).2.2.disk := by
  have hrefl : Spec.Adds w.disk w.disk := (Tracks.refl (P := fun _ => True) w.disk).adds
  by_cases ho : ∃ R q, OpensLinked X w R q
  · obtain ⟨R, q, ho⟩ := ho
    rcases fetch_disk (key := key) (dest := dest) ho with ⟨_, h, _⟩ | ⟨k, _, h, _⟩
    · rw [h]; exact hrefl
    · rw [h]; exact C96_kept _ _ _ _ _
  · rw [linked_out (by simp) ho]; exact hrefl

/-- **C96** (`fetch`, the whole program): if it ends well, the argument denotes a key, and each file stored under it can be read below the destination, at a place vacant before. -/
theorem C96_fetched (X : Ctx) (key : Keyish) (dest : Path) (w : LinkWorld) (R : Repo) (q : List Bytes) (ho : OpensLinked X w R q) (h : (mainLinked X (.fetch key dest) w).1 = .success) :
    ∃ k, canonicalize (w.dbs q) key = .ok k ∧ ∀ n ns, Snap.Stored (w.dbs q) n k ns → n + 6 ≤ X.depth → ∀ rel c, (rel, c) ∈ filesOf ns →
      ∃ p md, (mainLinked X (.fetch key dest) w).2.2.disk.metadata (joins dest rel) = .ok (.file c md) ∧ (mainLinked X (.fetch key dest) w).2.2.disk.canonicalize (joins dest rel) = .ok p ∧
        (mainLinked X (.fetch key dest) w).2.2.disk.at p = some (.file c md) ∧ w.disk.at p = none := by
  rcases fetch_disk (key := key) (dest := dest) ho with ⟨_, _, h'⟩ | ⟨k, h1, h2, h3⟩
  · exact (h' h).elim
  · refine ⟨k, h1, fun n ns hs hf rel c hr => ?_⟩
    rw [h2]
    exact C96_restored hs hf dest (Prod.ext (h3 h) rfl) rel c hr

/-- **C96** (`checkout`, the whole program): whatever becomes of checking out HEAD's commit, if no link is on the way to the repository's directory and none is where the tree has something, nothing outside
that directory has changed, and no link has been made. -/
theorem C96_checked_out (X : Ctx) (hiter : ∀ l x, x ∈ X.iterNames l → x ∈ l) (w : LinkWorld) (R : Repo) (q : List Bytes) (ho : OpensLinked X w R q) (head : Bytes) (ck : Key) (c : Commit)
    (hh : HeadCommit (w.dbs q) head ck c) (n : Nat) (ns : List KNode) (hs : Snap.Stored (w.dbs q) n c.tree ns) (hok : ∀ x ∈ ns, ∀ m ∈ x.node.rel, okName m)
    (hnd : (ns.map fun x => x.node.rel).Nodup) (hcl : sDotDot ∉ R.root.comps) (hsane : ∀ e ∈ w.disk.ents, ∀ m ∈ e.1, okName m) (hpn : ∀ m ∈ loc w.disk.cwd R.root, okName m)
    (habove : ∀ p, p <+: loc w.disk.cwd R.root → p ≠ loc w.disk.cwd R.root → w.disk.at p = some .dir)
    (htree : ∀ x ∈ ns, ∀ t, w.disk.at (loc w.disk.cwd R.root ++ x.node.rel) ≠ some (.link t)) :
    (∀ p, ¬ loc w.disk.cwd R.root <+: p → (mainLinked X .checkout w).2.2.disk.at p = w.disk.at p) ∧
    (∀ p t, (mainLinked X .checkout w).2.2.disk.at p = some (.link t) → w.disk.at p = some (.link t)) := by
  have e : (mainLinked X .checkout w).2.2.disk = (checkoutLinked (w.dbs q) X.glob R.folder X.iterNames X.depth c.tree R.root w.disk).2 := by
    rw [linked_disk (by simp) ho]
    show (checkoutCmdLinked X R _).2.2 = _
    have h1 : getHeadKey (w.dbs q) = .ok ck := by
      unfold getHeadKey headName
      rw [hh.1]
      exact hh.2.1
    unfold checkoutCmdLinked
    erw [SM.bind_apply]
    simp only [SM.fst, readDb, SM.read, startLinked, h1]
    erw [SM.bind_apply]
    simp only [SM.fst, readDb, SM.read, hh.2.2, SM.snd]
  rw [e]
  have := C96_checkout hs hok hnd X.depth X.glob R.folder X.iterNames hiter R.root hcl w.disk hsane hpn habove htree
  exact ⟨this.1, this.2.1⟩

end Snap.Props
