import Verif.Props.Whole
/-!
C84: the shape of stored contents. What is written is balanced; what can be read is any tree.
-/
namespace Snap.Props
open Snap
set_option linter.unusedSectionVars false
variable [Serde] [LawfulSerde]

namespace Spec

/-- `k` leads to a tree in which all chunks are `n` levels down. -/
def Level (db : Db) : Nat → Key → Prop
  | 0, k => ∃ o, getObj db k = .ok o ∧ o.objtype = .fileBlob
  | n + 1, k => ∃ o, getObj db k = .ok o ∧ o.objtype = .fileBlobTree ∧ ∀ k' ∈ o.keys, Level db n k'

/-- Reading `k` means: the data of a chunk; the parts of a tree, whatever they are, from left to right; the one part of a file. -/
inductive Holds (db : Db) : Key → Bytes → Prop where
  | blob (k : Key) (o : Object) : getObj db k = .ok o → o.objtype = .fileBlob → Holds db k o.data
  | tree (k : Key) (o : Object) (parts : List (Key × Bytes)) : getObj db k = .ok o → o.objtype = .fileBlobTree → o.keys = parts.map Prod.fst →
      (∀ p ∈ parts, Holds db p.1 p.2) → Holds db k (parts.map Prod.snd).flatten
  | file (k : Key) (o : Object) (k' : Key) (c : Bytes) : getObj db k = .ok o → o.objtype = .fsItemFile → o.keys = [k'] → Holds db k' c → Holds db k c

end Spec
open Spec

/-! ### Writing -/

theorem den_level {db : Db} {n : Nat} {k : Key} {c : Bytes} (h : Den db n k c) : Level db n k := by
  induction n generalizing k c with
  | zero => exact ⟨_, h, rfl⟩
  | succ n ih =>
    obtain ⟨ps, h1, h2, _⟩ := h
    refine ⟨_, h1, rfl, fun k' hk => ?_⟩
    obtain ⟨p, hp, rfl⟩ := List.mem_map.mp hk
    exact ih (h2 p hp)

/-- **C84**: whatever has happened to a repository, the chunks of stored contents are all equally deep, at most five levels down. -/
theorem C84_balanced {H : Bytes → Key} {w : World} (hw : w.Sound H) (q : List Bytes) (hc : NoColl H (w.dbs q)) (k : Key) (o : Object) (h : getObj (w.dbs q) k = .ok o)
    (ht : o.objtype = .fileBlob ∨ o.objtype = .fileBlobTree) : ∃ n, n ≤ 5 ∧ Level (w.dbs q) n k := by
  obtain ⟨n, hn, c, hd⟩ := (whole_trees hw q hc h).1 ht
  exact ⟨n, hn, den_level hd⟩

/-- **C84**: a `file.blobtree` points to chunks only, or to blobtrees only (README.md). -/
theorem C84_one_type {H : Bytes → Key} {w : World} (hw : w.Sound H) (q : List Bytes) (hc : NoColl H (w.dbs q)) (k : Key) (o : Object) (h : getObj (w.dbs q) k = .ok o)
    (ht : o.objtype = .fileBlobTree) : (∀ k' ∈ o.keys, LeadsTo (w.dbs q) k' (· = .fileBlob)) ∨ (∀ k' ∈ o.keys, LeadsTo (w.dbs q) k' (· = .fileBlobTree)) := by
  obtain ⟨n, _, hl⟩ := C84_balanced hw q hc k o h (.inr ht)
  cases n with
  | zero =>
    obtain ⟨o', h1, h2⟩ := hl
    rw [h] at h1
    simp at h1
    rw [← h1, ht] at h2
    simp at h2
  | succ n =>
    obtain ⟨o', h1, h2, h3⟩ := hl
    rw [h] at h1
    simp at h1
    subst h1
    cases n with
    | zero => exact .inl fun k' hk => h3 k' hk
    | succ n => exact .inr fun k' hk => by obtain ⟨o', h4, h5, _⟩ := h3 k' hk; exact ⟨o', h4, h5⟩

/-! ### Reading -/

theorem readData_of {db : Db} {k : Key} {c : Bytes} (h : Holds db k c) : ∃ N, ∀ fuel, N ≤ fuel → ∀ out, readData db fuel k out = (.ok (), out ++ c) := by
  induction h with
  | blob k o h1 h2 =>
    refine ⟨1, fun fuel hf out => ?_⟩
    obtain ⟨f, rfl⟩ : ∃ f, fuel = f + 1 := ⟨fuel - 1, by omega⟩
    unfold readData
    rw [readDataTo_succ db _ f k h1, h2]
    rfl
  | file k o k' c h1 h2 h3 _ ih =>
    obtain ⟨N, hN⟩ := ih
    refine ⟨N + 1, fun fuel hf out => ?_⟩
    obtain ⟨f, rfl⟩ : ∃ f, fuel = f + 1 := ⟨fuel - 1, by omega⟩
    have := hN f (by omega) out
    unfold readData at this ⊢
    rw [readDataTo_succ db _ f k h1, h2, h3]
    exact this
  | tree k o parts h1 h2 h3 h4 ih =>
    have : ∃ N, ∀ fuel, N ≤ fuel → ∀ out, SM.each (readData db fuel) (parts.map Prod.fst) out = (.ok (), out ++ (parts.map Prod.snd).flatten) := by
      clear h1 h2 h3 h4
      induction parts with
      | nil => exact ⟨0, fun _ _ out => by simp [SM.each]; rfl⟩
      | cons p ps ihp =>
        obtain ⟨N, hN⟩ := ih p (by simp)
        obtain ⟨N', hN'⟩ := ihp (fun x hx => ih x (by simp [hx]))
        refine ⟨N + N', fun fuel hf out => ?_⟩
        show (readData db fuel p.1 >>= fun _ => SM.each (readData db fuel) (ps.map Prod.fst)) out = _
        rw [SM.bind_apply, hN fuel (by omega)]
        simp only
        rw [hN' fuel (by omega)]
        simp
    obtain ⟨N, hN⟩ := this
    refine ⟨N + 1, fun fuel hf out => ?_⟩
    obtain ⟨f, rfl⟩ : ∃ f, fuel = f + 1 := ⟨fuel - 1, by omega⟩
    have := hN f (by omega) out
    rw [← h3] at this
    unfold readData at this ⊢
    rw [readDataTo_succ db _ f k h1, h2]
    exact this

theorem holds_of {db : Db} (fuel : Nat) : ∀ k out, (readData db fuel k out).1 = .ok () → ∃ c, (readData db fuel k out).2 = out ++ c ∧ Holds db k c := by
  induction fuel with
  | zero => intro k out h; simp [readData, readDataTo] at h
  | succ f ih =>
    intro k out h
    cases hg : getObj db k with
    | ok o =>
      unfold readData at h ⊢
      rw [readDataTo_succ db _ f k hg] at h ⊢
      cases ht : o.objtype with
      | fileBlob => rw [ht] at h; exact ⟨o.data, rfl, .blob k o hg ht⟩
      | fileBlobTree =>
        rw [ht] at h
        simp only at h ⊢
        have : ∀ ks out, (SM.each (readDataTo db (fun d => SM.modify (· ++ d)) f) ks out).1 = .ok () →
            ∃ parts : List (Key × Bytes), ks = parts.map Prod.fst ∧ (∀ p ∈ parts, Holds db p.1 p.2) ∧
              (SM.each (readDataTo db (fun d => SM.modify (· ++ d)) f) ks out).2 = out ++ (parts.map Prod.snd).flatten := by
          intro ks
          induction ks with
          | nil => intro out _; exact ⟨[], rfl, by simp, by simp [SM.each]; rfl⟩
          | cons k' ks ihk =>
            intro out h
            change ((readDataTo db (fun d => SM.modify (· ++ d)) f k' >>= fun _ => SM.each (readDataTo db (fun d => SM.modify (· ++ d)) f) ks) out).1 = _ at h
            change ∃ parts : List (Key × Bytes), _ ∧ _ ∧ ((readDataTo db (fun d => SM.modify (· ++ d)) f k' >>= fun _ => SM.each (readDataTo db (fun d => SM.modify (· ++ d)) f) ks) out).2 = _
            rw [SM.bind_apply] at h ⊢
            rcases hx : readDataTo db (fun d => SM.modify (· ++ d)) f k' out with ⟨r, out'⟩
            rw [hx] at h
            cases r with
            | ok u =>
              simp only at h ⊢
              have h1 := ih k' out
              unfold readData at h1
              rw [hx] at h1
              obtain ⟨c, hc1, hc2⟩ := h1 rfl
              obtain ⟨parts, hp1, hp2, hp3⟩ := ihk out' h
              refine ⟨(k', c) :: parts, by simp [hp1], ?_, ?_⟩
              · intro p hp
                rcases List.mem_cons.mp hp with rfl | hp
                · exact hc2
                · exact hp2 p hp
              · rw [hp3, show out' = out ++ c from hc1]
                simp
            | err e => simp at h
            | panic => simp at h
            | fuel => simp at h
        obtain ⟨parts, h1, h2, h3⟩ := this o.keys out h
        exact ⟨_, h3, .tree k o parts hg ht h1 h2⟩
      | fsItemFile =>
        rw [ht] at h
        simp only at h ⊢
        match hk : o.keys with
        | [k'] =>
          rw [hk] at h
          obtain ⟨c, hc1, hc2⟩ := ih k' out h
          exact ⟨c, hc1, .file k o k' c hg ht hk hc2⟩
        | [] => rw [hk] at h; simp at h
        | _ :: _ :: _ => rw [hk] at h; simp at h
      | fsItemDir => rw [ht] at h; simp at h
      | commit => rw [ht] at h; simp at h
      | unknown => rw [ht] at h; simp at h
    | err e => simp [readData, readDataTo, hg, SM.bind_apply] at h
    | panic => simp [readData, readDataTo, hg, SM.bind_apply] at h
    | fuel => simp [readData, readDataTo, hg, SM.bind_apply] at h

/-- **C84**: the reader reads any tree of chunks, balanced or not, also with files inside: it succeeds exactly if there is such a tree, and then gives the chunks from left
to right, in any database whatever. -/
theorem C84_reader (db : Db) (k : Key) (c : Bytes) : Holds db k c ↔ ∃ N, ∀ fuel, N ≤ fuel → readData db fuel k [] = (.ok (), c) := by
  refine ⟨fun h => ?_, fun ⟨N, h⟩ => ?_⟩
  · obtain ⟨N, hN⟩ := readData_of h
    exact ⟨N, fun fuel hf => by rw [hN fuel hf]; rfl⟩
  · obtain ⟨c', h1, h2⟩ := holds_of N k [] (by rw [h N (Nat.le_refl _)])
    rw [h N (Nat.le_refl _)] at h1
    simp at h1
    rw [h1]
    exact h2

/-- **C84**: with any bound on the recursion that suffices for a successful reading, the result is the same. -/
theorem C84_reader_any_bound (db : Db) (k : Key) (fuel : Nat) (out : Bytes) (h : (readData db fuel k out).1 = .ok ()) :
    ∃ c, readData db fuel k out = (.ok (), out ++ c) ∧ Holds db k c := by
  obtain ⟨c, h1, h2⟩ := holds_of fuel k out h
  exact ⟨c, by rw [← h1, ← h], h2⟩

end Snap.Props
