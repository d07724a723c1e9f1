import Verif.Props.Whole
/-! C106: every theorem here is about any decoder with a few laws; what is read from the databases of the program does not depend on which one it is. -/
namespace Snap.Props
open Snap

/-! ### The laws can be met, in many ways -/

/-- **C106**: the decoder for definite lengths obeys the laws. -/
theorem C106_subset : @LawfulSerde Subset.serde := Subset.lawful

/-- C21 with this decoder, where nothing is assumed; and what is stored does not depend on a decoder. -/
theorem C21_subset (i j : FsItem) (o : Object) (h : i.toObject = .ok o) : @FsItem.ofObject Subset.serde o = .ok i ∧ (j.toObject = .ok o → i = j) :=
  ⟨@C21_roundtrip Subset.serde Subset.lawful i o h, fun h' => @C21_injective Subset.serde Subset.lawful i j o h h'⟩

/-- C22 with this decoder. -/
theorem C22_subset (H : Bytes → Key) (tree : Key) (parents : List Key) (attrs : CommitAttrs) (db db' : Db) (k : Key) (hi : Inv H db)
    (h : commitTree H tree parents attrs db = (.ok k, db')) (hc : NoColl H db') (hd : attrs.Readable) :
    ∃ ps x, ps.Perm parents ∧ x.Perm attrs.extra ∧ @Commit.fromKey Subset.serde db' k = .ok ⟨tree, ps, ⟨attrs.message, x⟩⟩ := by
  obtain ⟨ps, x, h1, _, h2, h3⟩ := @C22_roundtrip Subset.serde Subset.lawful H tree parents attrs db db' k hi h hc hd
  exact ⟨ps, x, h1, h2, h3 db' (List.prefix_refl _)⟩

theorem enc_map2 (a b c d : Cbor) : ((Cbor.map [a, b, c, d]).enc).head? = some 162 := by simp [Cbor.enc, cborHdr]

theorem enc_map3 (a b c d e f : Cbor) : ((Cbor.map [a, b, c, d, e, f]).enc).head? = some 163 := by simp [Cbor.enc, cborHdr]

/-- What a decoder may do with data that do not begin as the maps of two or three entries do (and are not empty): anything but panic. -/
structure Spec.Elsewhere (T : Serde) : Prop where
  same : ∀ b : Bytes, b = [] ∨ b.head? = some 162 ∨ b.head? = some 163 → T.object b = Subset.object b ∧ T.item b = Subset.item b ∧ T.attrs b = Subset.attrs b
  object : ∀ b, (∃ x, T.object b = .ok x) ∨ T.object b = .err .decode
  item : ∀ b, (∃ x, T.item b = .ok x) ∨ T.item b = .err .decode
  attrs : ∀ b, (∃ x, T.attrs b = .ok x) ∨ T.attrs b = .err .decode

/-- **C106**: so does every decoder that accepts other things elsewhere. -/
theorem C106_elsewhere (T : Serde) (h : Spec.Elsewhere T) : @LawfulSerde T := by
  have hi : ∀ i : FsItem, i.toCbor.enc.head? = some 163 := fun i => enc_map3 _ _ _ _ _ _
  have ha : ∀ a : CommitAttrs, a.toCbor.enc.head? = some 162 := fun a => enc_map2 _ _ _ _
  have L : @LawfulSerde Subset.serde := Subset.lawful
  refine { object_total := h.object, item_total := h.item, attrs_total := h.attrs, object_enc := ?_, item_enc := ?_, attrs_enc := ?_, attrs_deep := ?_, item_attrs := ?_, attrs_item := ?_, item_nil := ?_, attrs_nil := ?_ }
  · intro o b hb
    have hb' : b.head? = some 163 := by
      unfold Object.encode at hb
      split at hb
      · rw [← Res.ok.inj hb]; exact enc_map3 _ _ _ _ _ _
      · simp at hb
    exact ((h.same b (.inr (.inr hb'))).1).trans (L.object_enc hb)
  · intro i hw; exact ((h.same _ (.inr (.inr (hi i)))).2.1).trans (L.item_enc i hw)
  · intro a hw hr
    obtain ⟨x, hx, hp⟩ := L.attrs_enc a hw hr
    exact ⟨x, ((h.same _ (.inr (.inl (ha a)))).2.2).trans hx, hp⟩
  · intro a hw hd; exact ((h.same _ (.inr (.inl (ha a)))).2.2).trans (L.attrs_deep a hw hd)
  · intro a hw he; exact ((h.same _ (.inr (.inl (ha a)))).2.1).trans (L.item_attrs a hw he)
  · intro i hw; exact ((h.same _ (.inr (.inr (hi i)))).2.2).trans (L.attrs_item i hw)
  · exact ((h.same _ (.inl rfl)).2.1).trans L.item_nil
  · exact ((h.same _ (.inl rfl)).2.2).trans L.attrs_nil

/-! ### Two decoders read the same -/

section
variable {S T : Serde} (hS : @LawfulSerde S) (hT : @LawfulSerde T) {db : Db} (hcl : Closed db)
include hS hT hcl

/-- **C106**: all lawful decoders read the same objects from the databases of the program. -/
theorem C106_objects (k : Key) : @getObj S db k = @getObj T db k := by
  unfold getObj
  cases hg : get db k with
  | ok v =>
    obtain ⟨o, ho, _⟩ := hcl.rows _ (assoc_some_mem (get_eq_ok.mp hg))
    simp only [Res.ok_bind]
    exact (hS.object_enc ho).trans (hT.object_enc ho).symm
  | err e => rfl
  | panic => rfl
  | fuel => rfl

/-- **C106**: the same files and directories, except where contents are asked for as if they were one. -/
theorem C106_items (k : Key) (hk : ∀ o, @getObj S db k = .ok o → o.objtype ≠ .fileBlob) : @getItem S db k = @getItem T db k := by
  unfold getItem
  rw [← C106_objects hS hT hcl k]
  cases hg : @getObj S db k with
  | ok o =>
    simp only [Res.ok_bind]
    have hitem : ∀ i : FsItem, i.toObject = .ok o → @FsItem.ofObject S o = @FsItem.ofObject T o := by
      intro i hi
      exact (@FsItem.ofObject_toObject S hS i o hi).trans (@FsItem.ofObject_toObject T hT i o hi).symm
    cases @Closed.shape S hS db hcl k o hg with
    | blob d => exact (hk _ hg rfl).elim
    | blobTree ks => unfold FsItem.ofObject; rw [hS.item_nil, hT.item_nil]
    | file n c h => exact hitem _ h
    | dir r h => exact hitem _ h
    | commit tree ps hs m h =>
      obtain ⟨hs, rfl⟩ := Commit.toObject_ok h
      have hw := (CommitAttrs.toCbor_wf { message := m }).mpr hs
      unfold FsItem.ofObject
      rw [hS.item_attrs _ hw rfl, hT.item_attrs _ hw rfl]
  | err e => rfl
  | panic => rfl
  | fuel => rfl

/-- **C106**: the same commits, whatever is asked for. -/
theorem C106_commits (k : Key) : @Commit.fromKey S db k = @Commit.fromKey T db k := by
  unfold Commit.fromKey
  rw [← C106_objects hS hT hcl k]
  cases hg : @getObj S db k with
  | ok o =>
    rw [show (Res.ok o).unwrap = .ok o from rfl]
    simp only [Res.ok_bind]
    have hitem : ∀ i : FsItem, i.toObject = .ok o → @Commit.ofObject S o = @Commit.ofObject T o := by
      intro i hi
      obtain ⟨hs, rfl⟩ := FsItem.toObject_ok hi
      have hw := (FsItem.toCbor_wf i).mpr hs
      unfold Commit.ofObject
      rw [hS.attrs_item i hw, hT.attrs_item i hw]
    cases @Closed.shape S hS db hcl k o hg with
    | blob d =>
      have hall : ∀ (U : Serde), @LawfulSerde U → (@Commit.ofObject U ⟨d, [], .fileBlob⟩).unwrap = .panic := by
        intro U hU
        unfold Commit.ofObject
        rcases hU.attrs_total d with ⟨x, hx⟩ | hx <;> simp [hx, Res.unwrap]
      rw [hall S hS, hall T hT]
    | blobTree ks => unfold Commit.ofObject; rw [hS.attrs_nil, hT.attrs_nil]
    | file n c h => rw [hitem _ h]
    | dir r h => rw [hitem _ h]
    | commit tree ps hs m h => rw [@Commit.ofObject_toObject S hS _ _ h rfl, @Commit.ofObject_toObject T hT _ _ h rfl]
  | err e => rfl
  | panic => rfl
  | fuel => rfl

/-- **C106**: the same contents. -/
theorem C106_data {σ : Type} (sink : Bytes → SM σ Unit) (n : Nat) (k : Key) : @readDataTo S σ db sink n k = @readDataTo T σ db sink n k := by
  induction n generalizing k with
  | zero => rfl
  | succ n ih =>
    have ih' : @readDataTo S σ db sink n = @readDataTo T σ db sink n := funext ih
    simp only [readDataTo, C106_objects hS hT hcl k, ih']

variable {H : Bytes → Key} (hi : Inv H db) (hwh : Whole H db) (hc : NoColl H db)
include hi hwh hc

/-- What is below a directory. -/
theorem same_children {k : Key} {o : Object} (ho : @getObj S db k = .ok o) {i : FsItem} (hI : @getItem S db k = .ok i) (hd : i.itemtype = .dir) (ht : IsItem o.objtype) :
    ∀ c ∈ i.children, ∃ o', @getObj S db c = .ok o' ∧ IsItem o'.objtype := by
  have hof : @FsItem.ofObject S o = .ok i := by
    unfold getItem at hI
    rw [ho] at hI
    exact hI
  have hk : i.children = o.keys := @FsItem.ofObject_keys S hS o i hof
  have hw := @types_of S hS H db hi hcl hwh hc k o ho
  unfold WellTyped at hw
  rcases ht with ht | ht
  · exfalso
    cases @Closed.shape S hS db hcl k o ho with
    | blob => simp at ht
    | blobTree => simp at ht
    | file n c h =>
      rw [@FsItem.ofObject_toObject S hS _ _ h] at hof
      rw [← Res.ok.inj hof] at hd
      simp at hd
    | dir r h => obtain ⟨_, rfl⟩ := FsItem.toObject_ok h; simp [ItemType.objType] at ht
    | commit _ _ _ _ h => obtain ⟨_, rfl⟩ := Commit.toObject_ok h; simp at ht
  · rw [ht] at hw
    intro c hc'
    rw [hk] at hc'
    exact hw.1 c hc'

/-- **C106**: the same listing of any stored file or directory. -/
theorem C106_walk (n : Nat) (k : Key) (p : Path) {o : Object} (ho : @getObj S db k = .ok o) (ht : IsItem o.objtype) : @walkItemsFrom S db n k p = @walkItemsFrom T db n k p := by
  induction n generalizing k p o with
  | zero => rfl
  | succ n ih =>
    have hnb : ∀ o', @getObj S db k = .ok o' → o'.objtype ≠ .fileBlob := by
      intro o' ho'
      rw [ho] at ho'
      rw [← Res.ok.inj ho']
      rcases ht with ht | ht <;> rw [ht] <;> simp
    simp only [walkItemsFrom]
    rw [← C106_items hS hT hcl k hnb]
    cases hI : @getItem S db k with
    | ok i =>
      simp only [Res.ok_bind]
      cases hd : i.itemtype with
      | file => rfl
      | dir =>
        have hch := same_children hS hT hcl hi hwh hc ho hI hd ht
        have hall : ∀ (l : List (Key × Path)) (m : PMap (Key × Bool)), (∀ c ∈ l, c.1 ∈ i.children) →
            extendAll (fun c : Key × Path => @walkItemsFrom S db n c.1 (Path.join p c.2)) m l = extendAll (fun c : Key × Path => @walkItemsFrom T db n c.1 (Path.join p c.2)) m l := by
          intro l
          induction l with
          | nil => intros; rfl
          | cons c l ihl =>
            intro m hm
            obtain ⟨o', h1, h2⟩ := hch c.1 (hm c (by simp))
            simp only [extendAll, ih c.1 (Path.join p c.2) h1 h2]
            cases @walkItemsFrom T db n c.1 (Path.join p c.2) with
            | ok r => simp only [Res.ok_bind]; exact ihl _ fun d hd => hm d (by simp [hd])
            | err e => rfl
            | panic => rfl
            | fuel => rfl
        exact hall _ _ fun c hc' => (List.of_mem_zip (show (c.1, c.2) ∈ _ from hc')).1
    | err e => rfl
    | panic => rfl
    | fuel => rfl

/-- **C106**: the same files written by `fetch`, in the same order and with the same failures, whatever the file system does. -/
theorem C106_fetch (n : Nat) (k : Key) (p : Path) (fs : Fs) {o : Object} (ho : @getObj S db k = .ok o) (ht : IsItem o.objtype) :
    @getFsItem S db n k p fs = @getFsItem T db n k p fs := by
  induction n generalizing k p o fs with
  | zero => rfl
  | succ n ih =>
    have hnb : ∀ o', @getObj S db k = .ok o' → o'.objtype ≠ .fileBlob := by
      intro o' ho'
      rw [ho] at ho'
      rw [← Res.ok.inj ho']
      rcases ht with ht | ht <;> rw [ht] <;> simp
    have hdata : ∀ f : List Bytes, @readDataTo S Fs db (Fs.writeAll f) n = @readDataTo T Fs db (Fs.writeAll f) n := fun f => funext (C106_data hS hT hcl _ n)
    simp only [getFsItem]
    rw [← C106_items hS hT hcl k hnb]
    cases hI : @getItem S db k with
    | ok i =>
      rw [SM.bind_apply, SM.bind_apply]
      simp only [SM.lift]
      cases hd : i.itemtype with
      | file => simp only [hdata]
      | dir =>
        have hch := same_children hS hT hcl hi hwh hc ho hI hd ht
        have hall : ∀ (l : List (Key × Path)) (g : Fs), (∀ c ∈ l, c.1 ∈ i.children) →
            SM.each (fun c : Key × Path => @getFsItem S db n c.1 (Path.join p c.2)) l g = SM.each (fun c : Key × Path => @getFsItem T db n c.1 (Path.join p c.2)) l g := by
          intro l
          induction l with
          | nil => intros; rfl
          | cons c l ihl =>
            intro g hm
            obtain ⟨o', h1, h2⟩ := hch c.1 (hm c (by simp))
            simp only [SM.each, SM.bind]
            rw [ih c.1 (Path.join p c.2) g h1 h2]
            rcases @getFsItem T db n c.1 (Path.join p c.2) g with ⟨r, g'⟩
            cases r with
            | ok r => exact ihl _ fun d hd => hm d (by simp [hd])
            | err e => rfl
            | panic => rfl
            | fuel => rfl
        exact hall _ _ fun c hc' => (List.of_mem_zip (show (c.1, c.2) ∈ _ from hc')).1
    | err e => rfl
    | panic => rfl
    | fuel => rfl

end

/-- **C106** for every world that the program has made with one of them: another one finds the same objects, commits and contents, and the same files in every stored directory. -/
theorem C106_world {S T : Serde} (hS : @LawfulSerde S) (hT : @LawfulSerde T) {H : Bytes → Key} {w : World} (hw : @World.Sound S H w) (q : List Bytes) :
    (∀ k, @getObj S (w.dbs q) k = @getObj T (w.dbs q) k) ∧ (∀ k, @Commit.fromKey S (w.dbs q) k = @Commit.fromKey T (w.dbs q) k) ∧
    (∀ n k, @readData S (w.dbs q) n k = @readData T (w.dbs q) n k) ∧
    (NoColl H (w.dbs q) → ∀ k o, @getObj S (w.dbs q) k = .ok o → IsItem o.objtype →
      (∀ n, @walkItems S (w.dbs q) n k = @walkItems T (w.dbs q) n k) ∧ ∀ n p fs, @getFsItem S (w.dbs q) n k p fs = @getFsItem T (w.dbs q) n k p fs) := by
  have hr := @World.Sound.reachable S hS H w hw
  have hcl := @World.Reachable.closed S hS H w hr q
  have hi := @World.Reachable.inv S hS H w hr q
  have hwh := @World.Sound.whole S hS H w hw q
  exact ⟨C106_objects hS hT hcl, C106_commits hS hT hcl, fun n k => C106_data hS hT hcl _ n k, fun hc k o ho ht =>
    ⟨fun n => C106_walk hS hT hcl hi hwh hc n k [] ho ht, fun n p fs => C106_fetch hS hT hcl hi hwh hc n k p fs ho ht⟩⟩

/-! ### Where they can differ -/

/-- A decoder that reads the byte 7 as an empty directory. -/
@[instance_reducible] def Spec.seven : Serde := ⟨Subset.object, fun b => if b = [7] then .ok (0, .dir, []) else Subset.item b, Subset.attrs⟩

theorem seven_lawful : @LawfulSerde Spec.seven := by
  refine C106_elsewhere _ ⟨?_, fun b => LawfulSerde.object_total b, fun b => ?_, fun b => LawfulSerde.attrs_total b⟩
  · intro b hb
    refine ⟨rfl, ?_, rfl⟩
    have : b ≠ [7] := by rintro rfl; simp at hb
    show (if b = [7] then _ else _) = _
    rw [if_neg this]
  · show (∃ x, (if b = [7] then _ else _) = _) ∨ (if b = [7] then _ else _) = _
    split
    · exact .inl ⟨_, rfl⟩
    · exact LawfulSerde.item_total b

/-- **C106**: contents asked for as if they were a file or a directory (which `fetch`, `diff` and the like do with any key given to them) are the one thing that can depend on the decoder: a database of
which all decoders read the same objects, and a key that one takes for an empty directory and another refuses. -/
theorem C106_counterexample : ∃ (S T : Serde) (_ : @LawfulSerde S) (_ : @LawfulSerde T) (db : Db) (k : Key), Closed db ∧ (∃ o, @getObj S db k = .ok o ∧ o.objtype = .fileBlob) ∧
    @getItem S db k = .ok ⟨0, .dir, [], []⟩ ∧ @getItem T db k = .err .decode := by
  let k : Key := ⟨List.replicate 32 1, by decide⟩
  let o : Object := ⟨[7], [], .fileBlob⟩
  refine ⟨Spec.seven, Subset.serde, seven_lawful, Subset.lawful, { data := [(k.asDbKey, o.toCbor.enc)] }, k, ⟨?_, by simp⟩, ⟨o, by decide +kernel, rfl⟩, by decide +kernel, by decide +kernel⟩
  intro pre r post e
  have hr : r = (k.asDbKey, o.toCbor.enc) := by
    have e' : [(k.asDbKey, o.toCbor.enc)] = pre ++ r :: post := e
    have : r ∈ [(k.asDbKey, o.toCbor.enc)] := by rw [e']; simp
    simpa using this
  subst hr
  exact ⟨o, by decide +kernel, .blob [7], by simp [o]⟩

end Snap.Props
