import Verif.Model.Text
import Verif.Props.Effects
import Verif.Props.Keys
import Verif.Props.Whole
/-! What can be read off the printed text (C80). -/
namespace Snap.Props
open Snap
set_option linter.unusedSectionVars false
variable [Serde] [LawfulSerde]

namespace Spec

/-- The lines of a text. -/
def lines : Bytes → List Bytes
  | [] => []
  | b :: bs =>
    if b = 10 then [] :: lines bs
    else match lines bs with
      | [] => [[b]]
      | l :: ls => (b :: l) :: ls

/-- The parts between separators. -/
def fields (sep : UInt8) : Bytes → List Bytes
  | [] => [[]]
  | b :: bs =>
    if b = sep then [] :: fields sep bs
    else match fields sep bs with
      | [] => [[b]]
      | l :: ls => (b :: l) :: ls

/-- A decimal digit. -/
def isDigit (b : UInt8) : Bool := 48 ≤ b && b ≤ 57

/-- A decimal number. -/
def number (b : Bytes) : Option Nat :=
  if b ≠ [] ∧ b.all isDigit then some (b.foldl (fun n d => 10 * n + (d.toNat - 48)) 0) else none

/-- A hexadecimal digit. -/
def hexValue (b : UInt8) : Option Nat :=
  if 48 ≤ b ∧ b ≤ 57 then some (b.toNat - 48) else if 97 ≤ b ∧ b ≤ 102 then some (b.toNat - 87) else none

/-- The bytes two hexadecimal digits each. -/
def unhex : Bytes → Option Bytes
  | [] => some []
  | [_] => none
  | a :: b :: r => do
    let x ← hexValue a
    let y ← hexValue b
    let r ← unhex r
    some (UInt8.ofNat (16 * x + y) :: r)

/-- Without a given beginning. -/
def after (pre t : Bytes) : Option Bytes := if pre.isPrefixOf t then some (t.drop pre.length) else none

/-- Without a given end. -/
def before (suf t : Bytes) : Option Bytes := if suf.isSuffixOf t then some (t.take (t.length - suf.length)) else none

/-- The bytes in `Blake3B([1, 2, …])`. -/
def hashIn (t : Bytes) : Option Bytes := do
  let t ← after (Text.lit "Blake3B([") t
  let t ← before (Text.lit "])") t
  let l ← (fields 44 (t.filter (· ≠ 32))).mapM number
  some (l.map UInt8.ofNat)

/-- The keys of a printed object, up to the end of their section: printed key and bytes of the hash. -/
def keysIn : List Bytes → Option (List (Bytes × Bytes) × List Bytes)
  | [] => none
  | [l] => if l = Text.lit "-/keys--" then some ([], []) else none
  | [l, d] => if l = Text.lit "-/keys--" then some ([], [d]) else none
  | l :: d :: e :: rest =>
    if l = Text.lit "-/keys--" then some ([], d :: e :: rest)
    else do
      let h ← hashIn d
      let (ks, r) ← keysIn rest
      some ((l, h) :: ks, r)

/-- The data of a printed object, up to the end of their section. -/
def dataIn : List Bytes → Option Bytes
  | [] => none
  | l :: rest =>
    if l = Text.lit "-/data--" then some []
    else do
      let a ← unhex l
      let b ← dataIn rest
      some (a ++ b)

/-- Reading the text of a printed object: its type, the printed keys and their hashes, its data. -/
def readObject (t : Bytes) : Option (Bytes × List (Bytes × Bytes) × Bytes) :=
  match lines t with
  | l1 :: l2 :: rest => do
    let ty ← after (Text.lit "--type: ") l1
    let ty ← before (Text.lit "--") ty
    if l2 = Text.lit "--keys--" then do
      let (ks, rest) ← keysIn rest
      match rest with
      | l3 :: rest => do
        if l3 = Text.lit "--data--" then do
          let d ← dataIn rest
          some (ty, ks, d)
        else none
      | [] => none
    else none
  | _ => none

end Spec

/-! ### Lines -/

theorem lines_line {l : Bytes} (h : (10 : UInt8) ∉ l) (rest : Bytes) : Spec.lines (Text.line l ++ rest) = l :: Spec.lines rest := by
  unfold Text.line
  induction l with
  | nil => simp [Spec.lines]
  | cons b l ih =>
    have hb : b ≠ 10 := fun e => h (by simp [e])
    have := ih (fun e => h (by simp [e]))
    simp only [List.cons_append, Spec.lines, if_neg hb]
    rw [List.append_assoc] at this ⊢
    rw [this]

theorem lines_flatMap {α} (f : α → Bytes) (l : List α) (h : ∀ a ∈ l, (10 : UInt8) ∉ f a) (rest : Bytes) :
    Spec.lines (l.flatMap (fun a => Text.line (f a)) ++ rest) = l.map f ++ Spec.lines rest := by
  induction l with
  | nil => rfl
  | cons a l ih =>
    rw [List.flatMap_cons, List.append_assoc, lines_line (h a (by simp)), ih fun x hx => h x (by simp [hx])]
    rfl

/-! ### Numbers -/

theorem digit_ok (n : Nat) (h : n < 10) : Spec.isDigit (UInt8.ofNat (48 + n)) = true ∧ (UInt8.ofNat (48 + n)).toNat - 48 = n := by
  have : n = 0 ∨ n = 1 ∨ n = 2 ∨ n = 3 ∨ n = 4 ∨ n = 5 ∨ n = 6 ∨ n = 7 ∨ n = 8 ∨ n = 9 := by omega
  rcases this with rfl | rfl | rfl | rfl | rfl | rfl | rfl | rfl | rfl | rfl <;> decide

theorem decGo_ok : ∀ (f n : Nat), n < f → Text.decGo f n ≠ [] ∧ (Text.decGo f n).all Spec.isDigit = true ∧
    (Text.decGo f n).foldl (fun n d => 10 * n + (d.toNat - 48)) 0 = n
  | 0, n, h => by omega
  | f + 1, n, h => by
    unfold Text.decGo
    by_cases hn : n < 10
    · rw [if_pos hn]
      obtain ⟨h1, h2⟩ := digit_ok n hn
      refine ⟨by simp, by simp only [List.all_cons, h1, List.all_nil, Bool.and_self], ?_⟩
      simp only [List.foldl_cons, List.foldl_nil, h2]
      omega
    · rw [if_neg hn]
      obtain ⟨_, h2, h3⟩ := decGo_ok f (n / 10) (by omega)
      obtain ⟨d1, d2⟩ := digit_ok (n % 10) (Nat.mod_lt _ (by omega))
      refine ⟨by simp, by simp only [List.all_append, h2, List.all_cons, d1, List.all_nil, Bool.and_self], ?_⟩
      rw [List.foldl_append, h3]
      simp only [List.foldl_cons, List.foldl_nil, d2]
      omega

theorem dec_digits (n : Nat) : (Text.dec n).all Spec.isDigit = true := (decGo_ok (n + 1) n (by omega)).2.1

theorem dec_ne_nil (n : Nat) : Text.dec n ≠ [] := (decGo_ok (n + 1) n (by omega)).1

theorem number_dec (n : Nat) : Spec.number (Text.dec n) = some n := by
  obtain ⟨h1, h2, h3⟩ := decGo_ok (n + 1) n (by omega)
  unfold Spec.number
  rw [if_pos ⟨h1, h2⟩]
  exact congrArg some h3

theorem digit_range {b : UInt8} (h : Spec.isDigit b = true) : 48 ≤ b ∧ b ≤ 57 := by
  unfold Spec.isDigit at h
  simpa using h

theorem dec_no {b : UInt8} (hb : Spec.isDigit b = false) (n : Nat) : b ∉ Text.dec n := by
  intro h
  have := List.all_eq_true.mp (dec_digits n) b h
  simp [this] at hb

/-! ### Hexadecimal -/

theorem hex_digit (n : Nat) (h : n < 16) : Spec.hexValue (Text.hexDigit n) = some n ∧ Text.hexDigit n ≠ 10 ∧ Text.hexDigit n ≠ 45 := by
  have : n = 0 ∨ n = 1 ∨ n = 2 ∨ n = 3 ∨ n = 4 ∨ n = 5 ∨ n = 6 ∨ n = 7 ∨ n = 8 ∨ n = 9 ∨ n = 10 ∨ n = 11 ∨ n = 12 ∨ n = 13 ∨ n = 14 ∨ n = 15 := by omega
  rcases this with rfl | rfl | rfl | rfl | rfl | rfl | rfl | rfl | rfl | rfl | rfl | rfl | rfl | rfl | rfl | rfl <;> decide

theorem unhex_hex : ∀ b : Bytes, Spec.unhex (Text.hex b) = some b
  | [] => rfl
  | x :: b => by
    have hx : x.toNat < 256 := x.toNat_lt
    have h1 := (hex_digit (x.toNat / 16) (by omega)).1
    have h2 := (hex_digit (x.toNat % 16) (by omega)).1
    have ih := unhex_hex b
    have hm : 16 * (x.toNat / 16) + x.toNat % 16 = x.toNat := by omega
    show Spec.unhex (Text.hexDigit (x.toNat / 16) :: Text.hexDigit (x.toNat % 16) :: Text.hex b) = _
    simp only [Spec.unhex, h1, h2, ih, Option.bind_eq_bind, Option.bind_some, hm, UInt8.ofNat_toNat]

theorem hex_mem {c : UInt8} {b : Bytes} (h : c ∈ Text.hex b) : c ≠ 10 ∧ c ≠ 45 := by
  unfold Text.hex at h
  obtain ⟨x, _, hc⟩ := List.mem_flatMap.mp h
  have hx : x.toNat < 256 := x.toNat_lt
  simp only [List.mem_cons, List.not_mem_nil, or_false] at hc
  rcases hc with rfl | rfl
  · exact (hex_digit _ (by omega)).2
  · exact (hex_digit _ (by omega)).2

theorem chunksGo_flatten (size : Nat) (hs : 0 < size) : ∀ (f : Nat) (b : Bytes), b.length ≤ f → (Text.chunksGo size f b).flatten = b
  | 0, b, h => by
    have : b = [] := List.length_eq_zero_iff.mp (by omega)
    subst this; rfl
  | f + 1, [], _ => rfl
  | f + 1, x :: b, h => by
    simp only [Text.chunksGo, List.flatten_cons]
    rw [chunksGo_flatten size hs f _ (by simp only [List.length_drop, List.length_cons] at h ⊢; omega), List.take_append_drop]

theorem chunks_flatten (b : Bytes) : (Text.chunks Text.displayChunkSize b).flatten = b := chunksGo_flatten _ (by decide) _ _ (Nat.le_refl _)

theorem dataIn_chunks (l : List Bytes) (rest : List Bytes) : Spec.dataIn (l.map Text.hex ++ Text.lit "-/data--" :: rest) = some l.flatten := by
  induction l with
  | nil => simp [Spec.dataIn]
  | cons a l ih =>
    have hne : Text.hex a ≠ Text.lit "-/data--" := by
      intro e
      have : (45 : UInt8) ∈ Text.hex a := by rw [e]; decide +kernel
      exact (hex_mem this).2 rfl
    simp only [List.map_cons, List.cons_append, Spec.dataIn, if_neg hne, unhex_hex, ih, Option.bind_eq_bind, Option.bind_some, List.flatten_cons]

/-! ### Keys -/

theorem after_append (pre t : Bytes) : Spec.after pre (pre ++ t) = some t := by
  unfold Spec.after
  rw [if_pos (List.isPrefixOf_iff_prefix.mpr ⟨t, rfl⟩)]
  simp

theorem before_append (t suf : Bytes) : Spec.before suf (t ++ suf) = some t := by
  unfold Spec.before
  rw [if_pos (List.isSuffixOf_iff_suffix.mpr ⟨t, rfl⟩)]
  simp

theorem fields_append {sep : UInt8} {a : Bytes} (h : sep ∉ a) (rest : Bytes) : Spec.fields sep (a ++ sep :: rest) = a :: Spec.fields sep rest := by
  induction a with
  | nil => simp [Spec.fields]
  | cons b a ih =>
    have hb : b ≠ sep := fun e => h (by simp [e])
    simp only [List.cons_append, Spec.fields, if_neg hb, ih fun e => h (by simp [e])]

theorem fields_one {sep : UInt8} {a : Bytes} (h : sep ∉ a) : Spec.fields sep a = [a] := by
  induction a with
  | nil => rfl
  | cons b a ih =>
    have hb : b ≠ sep := fun e => h (by simp [e])
    simp only [Spec.fields, if_neg hb, ih fun e => h (by simp [e])]

theorem filter_dec (n : Nat) : (Text.dec n).filter (· ≠ 32) = Text.dec n := by
  rw [List.filter_eq_self]
  intro a ha
  simp only [decide_eq_true_eq, ne_eq]
  rintro rfl
  exact dec_no (by decide) n ha

theorem fields_sepBy : ∀ (ns : List Nat), ns ≠ [] → Spec.fields 44 ((Text.sepBy (Text.lit ", ") (ns.map Text.dec)).filter (· ≠ 32)) = ns.map Text.dec
  | [], h => absurd rfl h
  | [n], _ => by
    simp only [List.map_cons, List.map_nil, Text.sepBy, filter_dec]
    exact fields_one (dec_no (by decide) n)
  | n :: m :: ns, _ => by
    have ih := fields_sepBy (m :: ns) (by simp)
    have hl : (Text.lit ", ").filter (· ≠ 32) = [44] := by decide +kernel
    simp only [List.map_cons, Text.sepBy, List.filter_append, filter_dec, hl, List.append_assoc, List.singleton_append] at ih ⊢
    rw [fields_append (dec_no (by decide) n), ih]

theorem mapM_number (ns : List Nat) : (ns.map Text.dec).mapM Spec.number = some ns := by
  induction ns with
  | nil => rfl
  | cons n ns ih => rw [List.map_cons, List.mapM_cons, number_dec, ih]; rfl

theorem hashIn_debugKey (k : Key) : Spec.hashIn (Text.debugKey k) = some k.hash := by
  have hne : k.hash.map UInt8.toNat ≠ [] := by
    intro e
    have := congrArg List.length e
    rw [List.length_map, k.len32] at this
    simp at this
  have e1 : k.hash.map (fun b => Text.dec b.toNat) = (k.hash.map UInt8.toNat).map Text.dec := by simp
  have e2 : (k.hash.map UInt8.toNat).map UInt8.ofNat = k.hash := by
    rw [List.map_map]
    exact (List.map_congr_left fun b _ => UInt8.ofNat_toNat).trans (List.map_id _)
  unfold Spec.hashIn Text.debugKey
  rw [List.append_assoc, after_append, Option.bind_eq_bind, Option.bind_some, before_append, Option.bind_some, e1, fields_sepBy _ hne, mapM_number, Option.bind_eq_bind, Option.bind_some, e2]

theorem userKey_no {b : UInt8} (h98 : b ≠ 98) (h : ¬ Spec.IsBase32 b) (k : Key) : b ∉ k.asUserKey := by
  obtain ⟨t, ht, _, hall⟩ := C05_shape k
  rw [ht]
  intro hm
  rcases List.mem_cons.mp hm with e | e
  · exact h98 e
  · exact h (hall b e)

theorem sepBy_no {c : UInt8} {sep : Bytes} (hs : c ∉ sep) : ∀ l : List Bytes, (∀ a ∈ l, c ∉ a) → c ∉ Text.sepBy sep l
  | [], _ => by simp [Text.sepBy]
  | [a], h => by simpa [Text.sepBy] using h a (by simp)
  | a :: b :: l, h => by
    have := sepBy_no hs (b :: l) fun x hx => h x (by simp [hx])
    simp only [Text.sepBy, List.mem_append, not_or]
    exact ⟨⟨h a (by simp), hs⟩, this⟩

theorem debugKey_no_nl (k : Key) : (10 : UInt8) ∉ Text.debugKey k := by
  unfold Text.debugKey
  simp only [List.mem_append, not_or]
  refine ⟨⟨by decide +kernel, sepBy_no (by decide +kernel) _ ?_⟩, by decide +kernel⟩
  intro a ha
  obtain ⟨b, _, rfl⟩ := List.mem_map.mp ha
  exact dec_no (by decide) _

theorem keysIn_keys (ks : List Key) (rest : List Bytes) (hr : 2 ≤ rest.length) :
    Spec.keysIn ((ks.flatMap fun k => [k.asUserKey, Text.debugKey k, []]) ++ Text.lit "-/keys--" :: rest) = some (ks.map fun k => (k.asUserKey, k.hash), rest) := by
  induction ks with
  | nil =>
    match rest, hr with
    | a :: b :: rest, _ => simp [Spec.keysIn]
  | cons k ks ih =>
    have hne : k.asUserKey ≠ Text.lit "-/keys--" := by
      intro e
      have : (45 : UInt8) ∈ k.asUserKey := by rw [e]; decide +kernel
      exact userKey_no (by decide) (by decide) k this
    simp only [List.flatMap_cons, List.cons_append, List.nil_append, Spec.keysIn, if_neg hne, hashIn_debugKey, ih, Option.bind_eq_bind, Option.bind_some, List.map_cons]

theorem name_no_nl (t : ObjType) : (10 : UInt8) ∉ t.name := by cases t <;> decide

theorem flatMap_lines3 (ks : List Key) (rest : Bytes) :
    Spec.lines ((ks.flatMap fun k => Text.line k.asUserKey ++ Text.line (Text.debugKey k) ++ Text.line []) ++ rest) =
      (ks.flatMap fun k => [k.asUserKey, Text.debugKey k, []]) ++ Spec.lines rest := by
  induction ks with
  | nil => rfl
  | cons k ks ih =>
    simp only [List.flatMap_cons, List.append_assoc] at ih ⊢
    rw [lines_line (userKey_no (by decide) (by decide) k), lines_line (debugKey_no_nl k), lines_line (by simp), ih]
    rfl

/-- **C80**: from the text of a printed object one can read its type, its keys, in two notations, and its data. -/
theorem C80_reads (F : Fmt) (o : Object) :
    Spec.readObject (Text.prettyPrint F o) = some (o.objtype.name, o.keys.map fun k => (k.asUserKey, k.hash), o.data) := by
  have nl : ∀ s : Bytes, (10 : UInt8) ∉ s → ∀ rest, Spec.lines (Text.line s ++ rest) = s :: Spec.lines rest := fun s h rest => lines_line h rest
  unfold Spec.readObject Text.prettyPrint
  simp only [List.append_assoc]
  have h1 : (10 : UInt8) ∉ Text.lit "--type: " ++ (o.objtype.name ++ Text.lit "--") := by
    simp only [List.mem_append, not_or]
    exact ⟨by decide +kernel, name_no_nl _, by decide +kernel⟩
  rw [nl _ h1, nl (Text.lit "--keys--") (by decide +kernel)]
  have := flatMap_lines3 o.keys
  simp only [List.append_assoc] at this
  rw [this, nl (Text.lit "-/keys--") (by decide +kernel), nl (Text.lit "--data--") (by decide +kernel),
    lines_flatMap Text.hex _ (fun a _ h => (hex_mem h).1 rfl), nl (Text.lit "-/data--") (by decide +kernel), nl (Text.lit "--deserialised data--") (by decide +kernel)]
  simp only [after_append, before_append, Option.bind_eq_bind, Option.bind_some, if_true]
  rw [keysIn_keys _ _ (by simp; omega)]
  simp only [Option.bind_some, if_true]
  rw [dataIn_chunks, chunks_flatten]
  rfl

/-! ### Commands -/

theorem mainText_open {F : Fmt} {X : Ctx} {cmd : Command} (hc : cmd ≠ .init) {w : World} {R : Repo} {q : List Bytes} (ho : Opens X w R q) :
    mainText F X cmd w = Text.ofRun F cmd (cmd.inRepo X R (startOf w q)).1 (cmd.inRepo X R (startOf w q)).2.out := by
  obtain ⟨h1, h2, h3⟩ := ho
  unfold mainText
  simp only [h1, h2, h3]
  cases cmd <;> first | exact (hc rfl).elim | rfl

theorem run_prettyPrint {X : Ctx} {R : Repo} {w : World} {q : List Bytes} {key : Keyish} {k : Key} {o : Object} (hk : canonicalize (w.dbs q) key = .ok k)
    (hg : getObj (w.dbs q) k = .ok o) : (Command.prettyPrint key).inRepo X R (startOf w q) = (.ok (), { startOf w q with out := [.object o] }) := by
  show cmdPrettyPrint key (startOf w q) = _
  unfold cmdPrettyPrint
  rw [readDb_bind]
  have e1 : canonicalize (startOf w q).db key = .ok k := hk
  rw [e1]
  show (readDb (fun db => getObj db k) >>= fun o => emit (.object o)) (startOf w q) = _
  rw [readDb_bind]
  have e2 : getObj (startOf w q).db k = .ok o := hg
  rw [e2]
  rfl

/-- **C80**: what `debug pretty-print` prints is exactly this text of the stored object. -/
theorem C80_command (F : Fmt) (X : Ctx) (w : World) (R : Repo) (q : List Bytes) (ho : Opens X w R q) (key : Keyish) (k : Key) (o : Object)
    (hk : canonicalize (w.dbs q) key = .ok k) (hg : getObj (w.dbs q) k = .ok o) :
    Spec.readObject (mainText F X (.prettyPrint key) w) = some (o.objtype.name, o.keys.map fun k => (k.asUserKey, k.hash), o.data) := by
  rw [mainText_open (by simp) ho, run_prettyPrint hk hg]
  have : Text.ofRun F (.prettyPrint key) (.ok ()) [.object o] = Text.prettyPrint F o := by
    simp [Text.ofRun, Text.heading, Text.closing, Text.recordOf, Text.record]
  exact (congrArg Spec.readObject this).trans (C80_reads F o)

theorem chunksGo_range (size : Nat) (hs : 0 < size) : ∀ (f : Nat) (b : Bytes), b.length ≤ f →
    Text.chunksGo size f b = (List.range ((b.length + (size - 1)) / size)).map fun i => (b.drop (size * i)).take size
  | 0, b, h => by
    have : b = [] := List.length_eq_zero_iff.mp (by omega)
    subst this
    simp only [Text.chunksGo, List.length_nil, Nat.div_eq_of_lt (show 0 + (size - 1) < size by omega), List.range_zero, List.map_nil]
  | f + 1, [], h => by
    simp only [Text.chunksGo, List.length_nil, Nat.div_eq_of_lt (show 0 + (size - 1) < size by omega), List.range_zero, List.map_nil]
  | f + 1, x :: l, h => by
    have hn : ((x :: l).length + (size - 1)) / size = (((x :: l).drop size).length + (size - 1)) / size + 1 := by
      rw [List.length_drop]
      by_cases hc : size ≤ (x :: l).length
      · rw [← Nat.add_div_right _ hs]
        congr 1
        omega
      · have h1 : ((x :: l).length - size + (size - 1)) / size = 0 := Nat.div_eq_of_lt (by omega)
        rw [h1]
        simp only [List.length_cons] at hc ⊢
        rw [Nat.div_eq_of_lt_le] <;> omega
    rw [hn, List.range_succ_eq_map, Text.chunksGo, chunksGo_range size hs f _ (by simp only [List.length_drop, List.length_cons] at h ⊢; omega)]
    simp only [List.map_cons, Nat.mul_zero, List.drop_zero, List.map_map]
    congr 1
    refine List.map_congr_left fun i _ => ?_
    simp only [Function.comp_apply, List.drop_drop, Nat.mul_succ]
    congr 2
    omega

/-- **C80**: the data is printed twenty bytes to the line, each as two hexadecimal digits, and the last line has what remains. -/
theorem C80_lines (F : Fmt) (o : Object) : ∃ front back, Text.prettyPrint F o = front ++ Text.lit "--data--\n" ++
    ((List.range ((o.data.length + 19) / 20)).flatMap fun i => (((o.data.drop (20 * i)).take 20).flatMap fun x => [Text.hexDigit (x.toNat / 16), Text.hexDigit (x.toNat % 16)]) ++ [10]) ++
    Text.lit "-/data--\n" ++ back := by
  refine ⟨Text.line (Text.lit "--type: " ++ o.objtype.name ++ Text.lit "--") ++ Text.line (Text.lit "--keys--") ++
    (o.keys.flatMap fun k => Text.line k.asUserKey ++ Text.line (Text.debugKey k) ++ Text.line []) ++ Text.line (Text.lit "-/keys--"),
    Text.line (Text.lit "--deserialised data--") ++ Text.line (F.value o.data) ++ Text.line (Text.lit "--/deserialised data--"), ?_⟩
  have h : Text.chunks Text.displayChunkSize o.data = _ := chunksGo_range 20 (by decide) o.data.length o.data (Nat.le_refl _)
  have e1 : Text.lit "--data--\n" = Text.line (Text.lit "--data--") := by decide +kernel
  have e2 : Text.lit "-/data--\n" = Text.line (Text.lit "-/data--") := by decide +kernel
  rw [e1, e2]
  unfold Text.prettyPrint
  rw [h, List.flatMap_map]
  simp only [List.append_assoc]
  rfl

/-- **C80**: if the texts printed for two arguments, in the same or in two different repositories, are equal, then both denote the same object under the same key. -/
theorem C80_same (F : Fmt) (X X' : Ctx) (hH : X'.E.H = X.E.H) (w w' : World) (hw : w.Reachable X.E.H) (hw' : w'.Reachable X'.E.H) (R R' : Repo) (q q' : List Bytes)
    (ho : Opens X w R q) (ho' : Opens X' w' R' q') (key key' : Keyish) (k k' : Key) (o o' : Object) (hk : canonicalize (w.dbs q) key = .ok k) (hg : getObj (w.dbs q) k = .ok o)
    (hk' : canonicalize (w'.dbs q') key' = .ok k') (hg' : getObj (w'.dbs q') k' = .ok o') (h : mainText F X (.prettyPrint key) w = mainText F X' (.prettyPrint key') w') : k = k' ∧ o = o' := by
  have e := C80_command F X w R q ho key k o hk hg
  rw [h, C80_command F X' w' R' q' ho' key' k' o' hk' hg'] at e
  simp only [Option.some.injEq, Prod.mk.injEq] at e
  obtain ⟨f1, f2, e3⟩ := e
  have e1 : o.objtype = o'.objtype := by rw [← ObjType.ofName_name o.objtype, ← f1, ObjType.ofName_name]
  have e2 : o.keys = o'.keys := by
    have := congrArg (List.map Prod.fst) f2
    simp only [List.map_map] at this
    have inj : ∀ a b : List Key, a.map Key.asUserKey = b.map Key.asUserKey → a = b := fun a b hab =>
      List.map_inj_right (fun x y hxy => asUserKey_inj hxy) |>.mp hab
    exact (inj _ _ this).symm
  have eo : o = o' := by
    clear f1 f2 hg hg'
    cases o; cases o'
    simp only at e1 e2 e3
    subst e1; subst e2; subst e3
    rfl
  refine ⟨?_, eo⟩
  subst eo
  have row : ∀ {w : World} {H : Bytes → Key} (_ : w.Reachable H) {q : List Bytes} {k : Key}, getObj (w.dbs q) k = .ok o → ∃ v, o.encode = .ok v ∧ H v = k := by
    intro w H hr q k hg
    obtain ⟨v, _, h2, h3, h4⟩ := getObj_row (World.Reachable.inv hr q) hg
    obtain ⟨o1, h5, _⟩ := (World.Reachable.closed hr q).rows _ h3
    have : Object.decode v = .ok o1 := Object.decode_encode h5
    rw [h4] at this
    injection this with this
    exact ⟨v, by rw [this]; exact h5, h2⟩
  obtain ⟨v, a1, a2⟩ := row hw hg
  obtain ⟨v', b1, b2⟩ := row hw' hg'
  rw [a1] at b1
  injection b1 with b1
  rw [← a2, ← b2, hH, b1]

end Snap.Props
