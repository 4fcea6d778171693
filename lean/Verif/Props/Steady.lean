import Verif.Proof.Steady
import Verif.Props.ShowsLike
import Verif.Props.Conformance

/-!
# Texts of values with hash maps compose

C51 and C79 for types that contain hash maps, if every map is iterated in the same order each time (which is so in Rust as long as it is not changed).
-/

namespace Miniserde

variable {ryu : F64 → Bytes} {lit : F64 → NumLit}

theorem prints_by {E : Env} {order : Nat → List (Bytes × Val) → List (Bytes × Val)} (ho : ∀ n ms, (order n ms).Perm ms) (hst : Steady order) (hE : E.Utf8)
    (hr : RyuSyntax ryu lit) {t : Ty} {v : Val} (h : HasTy E t v) : ∃ x, EncodesBy E (order 0) t v x ∧ PrintsAs E order ryu t v (compact (x.json lit)) := by
  obtain ⟨x, h', h1, h2, h3⟩ := hasTy_good_by (order := order) (ord := order 0) ho hst h SHeap.empty (fun _ _ => rfl)
  have hu := encodes_utf8 hE h x (h3.encodes (ho 0))
  exact ⟨x, h3, h', x.nodes, toStringN_streams hr h1 hu (Nat.le_refl _)⟩

theorem prints_of_encodesBy {E : Env} {order : Nat → List (Bytes × Val) → List (Bytes × Val)} (ho : ∀ n ms, (order n ms).Perm ms) (hst : Steady order) (hE : E.Utf8)
    (hr : RyuSyntax ryu lit) {t : Ty} {v : Val} (h : HasTy E t v) {x : FTree} (hx : EncodesBy E (order 0) t v x) :
    PrintsAs E order ryu t v (compact (x.json lit)) := by
  obtain ⟨y, hy, hp⟩ := prints_by ho hst hE hr h
  rw [hx.unique hy]
  exact hp

theorem prints_encodesBy (E : Env) (order : Nat → List (Bytes × Val) → List (Bytes × Val)) (ho : ∀ n ms, (order n ms).Perm ms) (hst : Steady order) (hE : E.Utf8)
    (hr : RyuSyntax ryu lit) {t : Ty} {v : Val} (h : HasTy E t v) {o : Bytes} (hp : PrintsAs E order ryu t v o) :
    ∃ x, EncodesBy E (order 0) t v x ∧ o = compact (x.json lit) ∧ True ∧ True := by
  obtain ⟨x, hx, hp'⟩ := prints_by ho hst hE hr h
  exact ⟨x, hx, PrintsAs.unique hp hp', trivial, trivial⟩

theorem encodesAllBy_each {E : Env} {ord : List (Bytes × Val) → List (Bytes × Val)} {t : Ty} : ∀ {vs : List Val} {xs : List FTree}, EncodesAllBy E ord t vs xs → Each (EncodesBy E ord t) vs xs
  | [], _, .nil _ => .nil
  | _ :: _, _, .cons h hs => .cons h (encodesAllBy_each hs)

/-- **C51, also with hash maps.** The text of a `Vec` is the texts of its elements, separated by commas, in brackets. -/
theorem C51_write_vec_steady (E : Env) (order : Nat → List (Bytes × Val) → List (Bytes × Val)) (ho : ∀ n ms, (order n ms).Perm ms) (hE : E.Utf8)
    (hr : RyuSyntax ryu lit) (hst : Steady order) (t : Ty) (vs : List Val)
    (h : HasTy E (.vec t) (.seq vs)) (o : Bytes) (hprint : PrintsAs E order ryu (.vec t) (.seq vs) o) :
    ∃ os, o = arrayText os ∧ Each (PrintsAs E order ryu t) vs os := by
  obtain ⟨x, hx, e, -, -⟩ := prints_encodesBy E order ho hst hE hr h hprint
  have hv : ∀ v ∈ vs, HasTy E t v := by
    cases h with
    | vec h => exact h
    | array ht _ => rcases ht with e | e <;> cases e
  cases hx with
  | array ht _ => rcases ht with e | e <;> cases e
  | vec hs =>
    rename_i xs
    refine ⟨xs.map fun x => compact (x.json lit), ?_, ?_⟩
    · rw [e]
      show 0x5B :: (compactElems (FTree.jsons lit xs) ++ [0x5D]) = _
      have : FTree.jsons lit xs = xs.map (FTree.json lit) := by
        clear hs e
        induction xs with
        | nil => rfl
        | cons x xs ih => simp [FTree.jsons, ih]
      rw [compactElems_joined, this, List.map_map]
      rfl
    · have he := encodesAllBy_each hs
      clear e hs h hprint
      induction he with
      | nil => exact .nil
      | cons h1 _ ih =>
        exact .cons (prints_of_encodesBy ho hst hE hr (hv _ List.mem_cons_self) h1) (ih fun v hm => hv v (List.mem_cons_of_mem _ hm))

/-- **C51, also with hash maps.** The text of a pair is that of an array of the two texts. -/
theorem C51_write_pair_steady (E : Env) (order : Nat → List (Bytes × Val) → List (Bytes × Val)) (ho : ∀ n ms, (order n ms).Perm ms) (hE : E.Utf8)
    (hr : RyuSyntax ryu lit) (hst : Steady order) (a b : Ty) (u v : Val)
    (hu : HasTy E a u) (hv : HasTy E b v) (o : Bytes) (hprint : PrintsAs E order ryu (.tup a b) (.seq [u, v]) o) :
    ∃ o₁ o₂, o = arrayText [o₁, o₂] ∧ PrintsAs E order ryu a u o₁ ∧ PrintsAs E order ryu b v o₂ := by
  obtain ⟨x, hx, e, -, -⟩ := prints_encodesBy E order ho hst hE hr (.tup hu hv) hprint
  cases hx with
  | array ht _ => rcases ht with e | e <;> cases e
  | tup h1 h2 =>
    rename_i x y
    refine ⟨compact (x.json lit), compact (y.json lit), ?_, prints_of_encodesBy ho hst hE hr hu h1, prints_of_encodesBy ho hst hE hr hv h2⟩
    rw [e]
    show 0x5B :: (compactElems [x.json lit, y.json lit] ++ [0x5D]) = _
    rw [compactElems_joined]
    rfl

/-- **C51, also with hash maps.** The text of a `BTreeMap` is `{"key":text,...}` in the order of the keys, with the keys as their `Display` shows them and the values' own texts. -/
theorem C51_write_map_steady (E : Env) (order : Nat → List (Bytes × Val) → List (Bytes × Val)) (ho : ∀ n ms, (order n ms).Perm ms) (hE : E.Utf8)
    (hr : RyuSyntax ryu lit) (hst : Steady order) (k : Nat) (t : Ty) (ms : List (Bytes × Val))
    (h : HasTy E (.bmap k t) (.map ms)) (o : Bytes) (hprint : PrintsAs E order ryu (.bmap k t) (.map ms) o) :
    ∃ os, o = objectText ((ms.map fun m => E.keyShow k m.1).zip os) ∧ Each (fun m o => PrintsAs E order ryu t m.2 o) ms os := by
  obtain ⟨x, hx, e, -, -⟩ := prints_encodesBy E order ho hst hE hr h hprint
  have hv : ∀ m ∈ ms, HasTy E t m.2 := by
    cases h with
    | bmap _ _ h => exact h
    | object ht _ _ _ => rcases ht with e | e <;> cases e
  cases hx with
  | object ht _ => rcases ht with e | e <;> cases e
  | bmap hs =>
    rename_i xs
    have hjm : ∀ xs : List (Bytes × FTree), FTree.jsonMembers lit xs = xs.map fun m => (m.1, m.2.json lit) := by
      intro xs
      induction xs with
      | nil => rfl
      | cons x xs ih => obtain ⟨k, x⟩ := x; simp [FTree.jsonMembers, ih]
    have key : ∀ {g : Bytes → Bytes} {ms : List (Bytes × Val)} {xs : List (Bytes × FTree)}, EncodesEntriesBy E (order 0) g t ms xs →
        (∀ m ∈ ms, HasTy E t m.2) →
        xs.map (fun m => (m.1, compact (m.2.json lit))) = (ms.map fun m => g m.1).zip (xs.map fun m => compact (m.2.json lit)) ∧
        Each (fun m o => PrintsAs E order ryu t m.2 o) ms (xs.map fun m => compact (m.2.json lit)) := by
      intro g ms xs hs
      induction ms generalizing xs with
      | nil => cases hs; intro _; exact ⟨rfl, .nil⟩
      | cons m ms ih =>
        cases hs with
        | cons h1 hs =>
          intro g1
          obtain ⟨i1, i2⟩ := ih hs (fun m hm => g1 m (List.mem_cons_of_mem _ hm))
          exact ⟨by simp [i1], .cons (prints_of_encodesBy ho hst hE hr (g1 _ List.mem_cons_self) h1) i2⟩
    obtain ⟨k1, k2⟩ := key hs hv
    refine ⟨_, ?_, k2⟩
    rw [e]
    show 0x7B :: (compactMembers (FTree.jsonMembers lit xs) ++ [0x7D]) = _
    rw [compactMembers_joined, hjm, List.map_map]
    unfold objectText
    rw [← k1]
    simp only [List.map_map]
    rfl

/-- **C51, also with hash maps.** The text of a derived struct is `{"name":text,...}` with the fields' own texts. -/
theorem C51_write_struct_steady (E : Env) (order : Nat → List (Bytes × Val) → List (Bytes × Val)) (ho : ∀ n ms, (order n ms).Perm ms) (hE : E.Utf8)
    (hr : RyuSyntax ryu lit) (hst : Steady order) (i : Nat) (vs : List Val)
    (h : HasTy E (.strct i) (.strct vs)) (o : Bytes) (hprint : PrintsAs E order ryu (.strct i) (.strct vs) o) :
    ∃ os, o = objectText (((E.fields i).map Prod.fst).zip os) ∧ Each (fun fv o => PrintsAs E order ryu fv.1.2 fv.2 o) ((E.fields i).zip vs) os := by
  obtain ⟨x, hx, e, -, -⟩ := prints_encodesBy E order ho hst hE hr h hprint
  have hv : ∀ fv ∈ (E.fields i).zip vs, HasTy E fv.1.2 fv.2 := by
    cases h with
    | strct hn h =>
      intro fv hm
      obtain ⟨j, hj⟩ := List.mem_iff_getElem?.1 hm
      rw [List.getElem?_zip_eq_some] at hj
      exact h j fv.1 fv.2 hj.1 hj.2
  cases hx with
  | strct hs =>
    rename_i xs
    have hjm : ∀ xs : List (Bytes × FTree), FTree.jsonMembers lit xs = xs.map fun m => (m.1, m.2.json lit) := by
      intro xs
      induction xs with
      | nil => rfl
      | cons x xs ih => obtain ⟨k, x⟩ := x; simp [FTree.jsonMembers, ih]
    have key : ∀ {fs : List (Bytes × Ty)} {us : List Val} {xs : List (Bytes × FTree)}, EncodesFieldsBy E (order 0) fs us xs →
        (∀ fv ∈ fs.zip us, HasTy E fv.1.2 fv.2) →
        xs.map (fun m => (m.1, compact (m.2.json lit))) = (fs.map Prod.fst).zip (xs.map fun m => compact (m.2.json lit)) ∧
        Each (fun fv o => PrintsAs E order ryu fv.1.2 fv.2 o) (fs.zip us) (xs.map fun m => compact (m.2.json lit)) := by
      intro fs us xs hs
      induction fs generalizing us xs with
      | nil => cases hs; intro _; exact ⟨rfl, .nil⟩
      | cons f fs ih =>
        cases hs with
        | cons h1 hs =>
          intro g1
          obtain ⟨i1, i2⟩ := ih hs (fun fv hm => g1 fv (List.mem_cons_of_mem _ hm))
          refine ⟨by simp [i1], .cons ?_ i2⟩
          exact prints_of_encodesBy ho hst hE hr (g1 _ List.mem_cons_self) h1
    obtain ⟨k1, k2⟩ := key hs hv
    refine ⟨_, ?_, k2⟩
    rw [e]
    show 0x7B :: (compactMembers (FTree.jsonMembers lit xs) ++ [0x7D]) = _
    rw [compactMembers_joined, hjm, List.map_map]
    unfold objectText
    rw [← k1]
    simp only [List.map_map]
    rfl

/-- **C51, also with hash maps.** The text of a `HashMap` is `{"key":text,...}` in its iteration order `order 0 ms`, with the keys as their `Display` shows them and the values' own texts. -/
theorem C51_write_hash_map (E : Env) (order : Nat → List (Bytes × Val) → List (Bytes × Val)) (ho : ∀ n ms, (order n ms).Perm ms) (hE : E.Utf8)
    (hr : RyuSyntax ryu lit) (hst : Steady order) (k : Nat) (t : Ty) (ms : List (Bytes × Val))
    (h : HasTy E (.hmap k t) (.map ms)) (o : Bytes) (hprint : PrintsAs E order ryu (.hmap k t) (.map ms) o) :
    ∃ os, o = objectText (((order 0 ms).map fun m => E.keyShow k m.1).zip os) ∧ Each (fun m o => PrintsAs E order ryu t m.2 o) (order 0 ms) os := by
  obtain ⟨x, hx, e, -, -⟩ := prints_encodesBy E order ho hst hE hr h hprint
  have hv : ∀ m ∈ ms, HasTy E t m.2 := by
    cases h with
    | hmap _ _ h => exact h
    | object ht _ _ _ => rcases ht with e | e <;> cases e
  cases hx with
  | object ht _ => rcases ht with e | e <;> cases e
  | hmap hs =>
    rename_i xs
    have hjm : ∀ xs : List (Bytes × FTree), FTree.jsonMembers lit xs = xs.map fun m => (m.1, m.2.json lit) := by
      intro xs
      induction xs with
      | nil => rfl
      | cons x xs ih => obtain ⟨k, x⟩ := x; simp [FTree.jsonMembers, ih]
    have key : ∀ {g : Bytes → Bytes} {ms : List (Bytes × Val)} {xs : List (Bytes × FTree)}, EncodesEntriesBy E (order 0) g t ms xs →
        (∀ m ∈ ms, HasTy E t m.2) →
        xs.map (fun m => (m.1, compact (m.2.json lit))) = (ms.map fun m => g m.1).zip (xs.map fun m => compact (m.2.json lit)) ∧
        Each (fun m o => PrintsAs E order ryu t m.2 o) ms (xs.map fun m => compact (m.2.json lit)) := by
      intro g ms xs hs
      induction ms generalizing xs with
      | nil => cases hs; intro _; exact ⟨rfl, .nil⟩
      | cons m ms ih =>
        cases hs with
        | cons h1 hs =>
          intro g1
          obtain ⟨i1, i2⟩ := ih hs (fun m hm => g1 m (List.mem_cons_of_mem _ hm))
          exact ⟨by simp [i1], .cons (prints_of_encodesBy ho hst hE hr (g1 _ List.mem_cons_self) h1) i2⟩
    obtain ⟨k1, k2⟩ := key hs fun m hm => hv m ((ho 0 ms).mem_iff.1 hm)
    refine ⟨_, ?_, k2⟩
    rw [e]
    show 0x7B :: (compactMembers (FTree.jsonMembers lit xs) ++ [0x7D]) = _
    rw [compactMembers_joined, hjm, List.map_map]
    unfold objectText
    rw [← k1]
    simp only [List.map_map]
    rfl

section
variable {σ : Type} {W : UserSer σ} {E : Env} {order : Nat → List (Bytes × Val) → List (Bytes × Val)}

/-- **C79, also with hash maps: slices, arrays and `Vec`.** -/
theorem C79_vec_steady (ho : ∀ n ms, (order n ms).Perm ms) (hE : E.Utf8) (hr : RyuSyntax ryu lit) (hst : Steady order) (t : Ty) (rs : List (SRef W.U W.K)) (vs : List Val) (hv : ∀ v ∈ vs, HasTy E t v) (h : Each (fun r v => ShowsLike W ryu E order r t v) rs vs) :
    ShowsLike W ryu E order (.slice rs) (.vec t) (.seq vs) ∧ ShowsLike W ryu E order (.slice rs) (.arr t vs.length) (.seq vs) := by
  have key : ShowsLike W ryu E order (.slice rs) (.vec t) (.seq vs) := by
    obtain ⟨o, h', hp, -⟩ := C28_total E order ho hE hr (.vec t) (.seq vs) (.vec hv)
    obtain ⟨os, rfl, hos⟩ := C51_write_vec_steady E order ho hE hr hst t vs (.vec hv) o ⟨h', hp⟩
    refine ⟨_, ⟨h', hp⟩, fun w => ?_⟩
    obtain ⟨w', hw⟩ := toStrs_like h hos w
    exact ⟨w', (C73_slice W ryu rs w _ w').2 ⟨_, hw, rfl⟩⟩
  obtain ⟨o, h1, h2⟩ := key
  exact ⟨⟨o, h1, h2⟩, ⟨o, ((C50_wrappers E order o).2.2.2.1 t vs.length vs).2 h1, h2⟩⟩

/-- **C79, also with hash maps: pairs.** -/
theorem C79_pair_steady (ho : ∀ n ms, (order n ms).Perm ms) (hE : E.Utf8) (hr : RyuSyntax ryu lit) (hst : Steady order) (a b : Ty) (r s : SRef W.U W.K) (u v : Val) (hu : HasTy E a u) (hv : HasTy E b v)
    (h1 : ShowsLike W ryu E order r a u) (h2 : ShowsLike W ryu E order s b v) : ShowsLike W ryu E order (.pair r s) (.tup a b) (.seq [u, v]) := by
  obtain ⟨o, h', hp, -⟩ := C28_total E order ho hE hr (.tup a b) (.seq [u, v]) (.tup hu hv)
  obtain ⟨o₁, o₂, rfl, g1, g2⟩ := C51_write_pair_steady E order ho hE hr hst a b u v hu hv o ⟨h', hp⟩
  refine ⟨_, ⟨h', hp⟩, fun w => ?_⟩
  obtain ⟨p₁, e1, f1⟩ := h1
  obtain ⟨p₂, e2, f2⟩ := h2
  cases PrintsAs.unique e1 g1
  cases PrintsAs.unique e2 g2
  obtain ⟨w₁, k1⟩ := f1 w
  obtain ⟨w₂, k2⟩ := f2 w₁
  exact ⟨w₂, (C73_pair W ryu r s w _ w₂).2 ⟨_, .cons k1 (.cons k2 (.nil w₂)), rfl⟩⟩

/-- **C79, also with hash maps: derived structs.** Field `j` of the struct with the hand-written types holds `rs[j]`, that of the other `vs[j]`. -/
theorem C79_struct_steady (ho : ∀ n ms, (order n ms).Perm ms) (hE : E.Utf8) (hr : RyuSyntax ryu lit) (hst : Steady order) (i : Nat)
    (rs : List (SRef W.U W.K)) (vs : List Val) (hv : HasTy E (.strct i) (.strct vs)) (hl : rs.length = (E.fields i).length)
    (h : ∀ (j : Nat) f r v, (E.fields i)[j]? = some f → rs[j]? = some r → vs[j]? = some v → ShowsLike W ryu E order r f.2 v) :
    ShowsLike W ryu E order (.strct (((E.fields i).map Prod.fst).zip rs)) (.strct i) (.strct vs) := by
  obtain ⟨o, h', hp, -⟩ := C28_total E order ho hE hr (.strct i) (.strct vs) hv
  obtain ⟨os, rfl, hos⟩ := C51_write_struct_steady E order ho hE hr hst i vs hv o ⟨h', hp⟩
  refine ⟨_, ⟨h', hp⟩, fun w => ?_⟩
  have hlv : vs.length = (E.fields i).length := by cases hv with | strct hn _ => exact hn
  obtain ⟨w', hw⟩ := toStrFields_like hl h hlv hos w
  refine ⟨w', (C73_struct W ryu _ ?_ w _ w').2 ⟨_, hw, rfl⟩⟩
  intro f hm
  obtain ⟨g, hg, e⟩ := List.mem_map.1 (List.of_mem_zip hm).1
  rw [← e]
  exact hE.fields i g hg

/-- **C79, also with hash maps: ordered maps** (of a hand-written key or value type, entries in iteration order). -/
theorem C79_map_steady (ho : ∀ n ms, (order n ms).Perm ms) (hE : E.Utf8) (hr : RyuSyntax ryu lit) (hst : Steady order) (hW : W.KeysUtf8) (k : Nat)
    (t : Ty) (es : List (W.K × SRef W.U W.K)) (ms : List (Bytes × Val)) (hm : HasTy E (.bmap k t) (.map ms))
    (h : Each (fun e m => KeyShows W e.1 (E.keyShow k m.1) ∧ ShowsLike W ryu E order e.2 t m.2) es ms) :
    ShowsLike W ryu E order (.map es) (.bmap k t) (.map ms) := by
  obtain ⟨o, h', hp, -⟩ := C28_total E order ho hE hr (.bmap k t) (.map ms) hm
  obtain ⟨os, rfl, hos⟩ := C51_write_map_steady E order ho hE hr hst k t ms hm o ⟨h', hp⟩
  refine ⟨_, ⟨h', hp⟩, fun w => ?_⟩
  obtain ⟨w', hw⟩ := toStrEntries_like h hos w
  exact ⟨w', (C73_map W ryu hW es w _ w').2 ⟨_, hw, rfl⟩⟩

/-- **C79, also with hash maps: hash maps** (of a hand-written key or value type, entries in iteration order). -/
theorem C79_hash_map (ho : ∀ n ms, (order n ms).Perm ms) (hE : E.Utf8) (hr : RyuSyntax ryu lit) (hst : Steady order) (hW : W.KeysUtf8) (k : Nat)
    (t : Ty) (es : List (W.K × SRef W.U W.K)) (ms : List (Bytes × Val)) (hm : HasTy E (.hmap k t) (.map ms))
    (h : Each (fun e m => KeyShows W e.1 (E.keyShow k m.1) ∧ ShowsLike W ryu E order e.2 t m.2) es (order 0 ms)) :
    ShowsLike W ryu E order (.map es) (.hmap k t) (.map ms) := by
  obtain ⟨o, h', hp, -⟩ := C28_total E order ho hE hr (.hmap k t) (.map ms) hm
  obtain ⟨os, rfl, hos⟩ := C51_write_hash_map E order ho hE hr hst k t ms hm o ⟨h', hp⟩
  refine ⟨_, ⟨h', hp⟩, fun w => ?_⟩
  obtain ⟨w', hw⟩ := toStrEntries_like h hos w
  exact ⟨w', (C73_map W ryu hW es w _ w').2 ⟨_, hw, rfl⟩⟩

/-- The encoding of a value that is a scalar is unique, whatever else there is in the program. -/
theorem Encodes.unique_leaf {E : Env} {Q M : Type} {f : Frag Q M} : ∀ {t : Ty} {v : Val} {x y : FTree}, LeafFrag f x → Encodes E t v x → Encodes E t v y → x = y
  | _, _, _, _, _, .unit, h => by cases h; rfl
  | _, _, _, _, _, .bool _, h => by cases h; rfl
  | _, _, _, _, _, .string _, h => by cases h; rfl
  | _, _, _, _, _, .unsigned bits n, h => by
    generalize hz : (n : Int) = z at h
    cases h
    rw [Int.ofNat.inj hz]
  | _, _, _, _, _, .signed _ _, h => by cases h; rfl
  | _, _, _, _, _, .f32 _, h => by cases h; rfl
  | _, _, _, _, _, .f64 _, h => by cases h; rfl
  | _, _, _, _, _, .numU t n ht, h => by rcases ht with rfl | rfl <;> (cases h; rfl)
  | _, _, _, _, _, .numI t z ht, h => by rcases ht with rfl | rfl <;> (cases h; rfl)
  | _, _, _, _, _, .numF t x ht, h => by rcases ht with rfl | rfl <;> (cases h; rfl)
  | _, _, _, _, _, .vNull, h => by cases h; rfl
  | _, _, _, _, _, .vBool _, h => by cases h; rfl
  | _, _, _, _, _, .vStr _, h => by cases h; rfl
  | _, _, _, _, hl, .array _ _, _ => by cases hl
  | _, _, _, _, hl, .object _ _, _ => by cases hl
  | _, _, _, _, hl, .box h1, h => by cases h with | box h2 => exact Encodes.unique_leaf hl h1 h2
  | _, _, _, _, _, .none _, h => by cases h; rfl
  | _, _, _, _, hl, .some h1, h => by cases h with | some h2 => exact Encodes.unique_leaf hl h1 h2
  | _, _, _, _, hl, .tup _ _, _ => by cases hl
  | _, _, _, _, hl, .vec _, _ => by cases hl
  | _, _, _, _, hl, .arr _, _ => by cases hl
  | _, _, _, _, hl, .hmap _ _, _ => by cases hl
  | _, _, _, _, hl, .bmap _, _ => by cases hl
  | _, _, _, _, hl, .strct _, _ => by cases hl
  | _, _, _, _, _, .enm h1, h => by
    cases h with
    | enm h2 => rw [h1] at h2; cases h2; rfl

/-- **C79, leaves, in any program.** A scalar of the library, and a hand-written type that makes the fragment of a library scalar, are written like that. -/
theorem C79_scalar_any (ho : ∀ n ms, (order n ms).Perm ms) (hE : E.Utf8) (hr : RyuSyntax ryu lit) (t : Ty) (v : Val) (hv : HasTy E t v) (x : FTree) (hx : Encodes E t v x) :
    (∀ f : Frag Empty Empty, LeafFrag f x → ShowsLike W ryu E order (.leaf f) t v) ∧
    ∀ (u : W.U) (f : Frag W.Q W.M), LeafFrag f x → (∀ w, ∃ w', W.begin u w = (some (.own f), w')) → ShowsLike W ryu E order (.user u) t v := by
  obtain ⟨o, h', hp, -, -, y, hy, -, e, -⟩ := C28_total E order ho hE hr t v hv
  have hu := encodes_utf8 hE hv x hx
  refine ⟨fun f h => ⟨o, ⟨h', hp⟩, fun w => ⟨w, ?_⟩⟩, fun u f h hb => ⟨o, ⟨h', hp⟩, fun w => ?_⟩⟩
  · cases Encodes.unique_leaf h hx hy
    exact (C73_leaf W ryu f _ (scalarText_compact hr h hu) w _ w).2 ⟨by rw [e], rfl⟩
  · cases Encodes.unique_leaf h hx hy
    obtain ⟨w', hw⟩ := hb w
    exact ⟨w', (C73_scalar W ryu u w w' f hw _ (scalarText_compact hr h hu) _ w').2 ⟨by rw [e], rfl⟩⟩

/-- **C79, round trip, also with hash maps** (which come back as the same maps). -/
theorem C79_round_trip_same {ρ α : Type} (ho : ∀ n ms, (order n ms).Perm ms) (hE : E.Utf8) (hr : RyuSyntax ryu lit) (t : Ty) (f : α → Val) (I : Deser ρ α) (hI : I.Like E t f)
    (a : α) (r : SRef W.U W.K) (hv : HasTy E t (f a)) (hp : Plain E t (f a)) (hs : ShowsLike W ryu E order r t (f a)) (w w' : σ) (o : Bytes)
    (hw : ToStr W ryu r w (some o) w') (hn : ∀ j, JText o j → j.ShortNums) (u : ρ) :
    ∃ b u', I.fromStr o u = some (.ok b, u') ∧ Same E t (f a) (f b) := by
  obtain ⟨o', h1, h2⟩ := hs
  obtain ⟨w₁, h3⟩ := h2 w
  cases (ToStr.unique hw h3).1
  obtain ⟨c, h4, h5⟩ := C33_round_trip E order ho hE hr t (f a) hv hp o h1
  obtain ⟨j, hj, hd⟩ := (parseAs_ok E).1 h4
  obtain ⟨q, u', e1, e2⟩ := hI.reads o j hj (hn j hj) u
  rw [h4] at e2
  cases q with
  | ok b =>
    injection e2 with e2
    injection e2 with e2
    exact ⟨b, u', e1, e2 ▸ h5⟩
  | err => cases e2
  | panic => cases e2

end

/-! ## Examples -/

/-- An order that depends on the map: reversed. -/
def exReverse : Nat → List (Bytes × Val) → List (Bytes × Val) := fun _ ms => ms.reverse

theorem exReverse_perm : ∀ n ms, (exReverse n ms).Perm ms := fun _ ms => List.reverse_perm ms
theorem exReverse_steady : Steady exReverse := fun _ _ => rfl

/-- A `Vec<HashMap<String, bool>>` with one map of two entries. -/
theorem exMaps_ty : HasTy exEnv (.hmap 0 .bool) (.map [(str! "a", .bool true), (str! "b", .bool false)]) := by
  refine .hmap (by decide) ?_ ?_
  · intro m hm
    simp only [List.mem_cons, List.not_mem_nil, or_false] at hm
    rcases hm with rfl | rfl <;> exact valid_ascii (by decide)
  · intro m hm
    simp only [List.mem_cons, List.not_mem_nil, or_false] at hm
    rcases hm with rfl | rfl <;> exact .bool _

example (o : Bytes) (h : PrintsAs exEnv exReverse (fun x => (exLit x).text) (.hmap 0 .bool) (.map [(str! "a", .bool true), (str! "b", .bool false)]) o) :
    ∃ x y, o = objectText [(str! "b", x), (str! "a", y)] ∧ PrintsAs exEnv exReverse (fun x => (exLit x).text) .bool (.bool false) x := by
  obtain ⟨os, rfl, he⟩ := C51_write_hash_map exEnv exReverse exReverse_perm exEnv_utf8 exRyu exReverse_steady 0 .bool _ exMaps_ty o h
  match os, he with
  | [x, y], .cons h1 (.cons h2 .nil) => exact ⟨x, y, rfl, h1⟩

example : PrintsAs exEnv exReverse (fun x => (exLit x).text) (.vec (.hmap 0 .bool)) (.seq [.map [(str! "a", .bool true), (str! "b", .bool false)]])
    (str! "[{\"b\":false,\"a\":true}]") := printsWith_eq (n := 40) (by decide +kernel)

end Miniserde
