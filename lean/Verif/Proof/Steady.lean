import Verif.Proof.SerLib
import Verif.Spec.Steady

/-!
# Serialization with a steady iteration order of hash maps

As `Proof/SerLib`, for the encoding with a given order.
-/

namespace Miniserde

mutual

/-- The serialization of a value, if the iteration order of hash maps is `ord`. -/
inductive EncodesBy (E : Env) (ord : List (Bytes × Val) → List (Bytes × Val)) : Ty → Val → FTree → Prop
  | unit : EncodesBy E ord .unit .null .null
  | bool (b : Bool) : EncodesBy E ord .bool (.bool b) (.bool b)
  | string (s : Bytes) : EncodesBy E ord .string (.str s) (.str s)
  | unsigned (bits n : Nat) : EncodesBy E ord (.int false bits) (.int n) (.u64 n)
  | signed (bits : Nat) (z : Int) : EncodesBy E ord (.int true bits) (.int z) (.i64 z)
  | f32 (x : F32) : EncodesBy E ord .f32 (.f32 x) (.f64 (x.cast binary64))
  | f64 (x : F64) : EncodesBy E ord .f64 (.f64 x) (.f64 x)
  | numU (t : Ty) (n : Nat) (ht : t = .number ∨ t = .value) : EncodesBy E ord t (.numU n) (.u64 n)
  | numI (t : Ty) (z : Int) (ht : t = .number ∨ t = .value) : EncodesBy E ord t (.numI z) (.i64 z)
  | numF (t : Ty) (x : F64) (ht : t = .number ∨ t = .value) : EncodesBy E ord t (.numF x) (.f64 x)
  | vNull : EncodesBy E ord .value .null .null
  | vBool (b : Bool) : EncodesBy E ord .value (.bool b) (.bool b)
  | vStr (s : Bytes) : EncodesBy E ord .value (.str s) (.str s)
  | array {t vs xs} (ht : t = .array ∨ t = .value) (h : EncodesAllBy E ord .value vs xs) : EncodesBy E ord t (.seq vs) (.seq xs)
  | object {t ms xs} (ht : t = .object ∨ t = .value) (h : EncodesEntriesBy E ord (fun k => k) .value ms xs) : EncodesBy E ord t (.map ms) (.map xs)
  | box {t v x} (h : EncodesBy E ord t v x) : EncodesBy E ord (.box t) (.box v) x
  | none (t : Ty) : EncodesBy E ord (.opt t) .optNone .null
  | some {t v x} (h : EncodesBy E ord t v x) : EncodesBy E ord (.opt t) (.optSome v) x
  | tup {a b v u x y} (hx : EncodesBy E ord a v x) (hy : EncodesBy E ord b u y) : EncodesBy E ord (.tup a b) (.seq [v, u]) (.seq [x, y])
  | vec {t vs xs} (h : EncodesAllBy E ord t vs xs) : EncodesBy E ord (.vec t) (.seq vs) (.seq xs)
  | arr {t n vs xs} (h : EncodesAllBy E ord t vs xs) : EncodesBy E ord (.arr t n) (.seq vs) (.seq xs)
  /-- in the order in which the map is iterated -/
  | hmap {k t ms xs} (h : EncodesEntriesBy E ord (E.keyShow k) t (ord ms) xs) : EncodesBy E ord (.hmap k t) (.map ms) (.map xs)
  /-- in key order -/
  | bmap {k t ms xs} (h : EncodesEntriesBy E ord (E.keyShow k) t ms xs) : EncodesBy E ord (.bmap k t) (.map ms) (.map xs)
  | strct {i vs xs} (h : EncodesFieldsBy E ord (E.fields i) vs xs) : EncodesBy E ord (.strct i) (.strct vs) (.map xs)
  | enm {i j name} (h : (E.variants i)[j]? = Option.some name) : EncodesBy E ord (.enm i) (.enm j) (.str name)

/-- Elements in order. -/
inductive EncodesAllBy (E : Env) (ord : List (Bytes × Val) → List (Bytes × Val)) : Ty → List Val → List FTree → Prop
  | nil (t : Ty) : EncodesAllBy E ord t [] []
  | cons {t v vs x xs} (h : EncodesBy E ord t v x) (hs : EncodesAllBy E ord t vs xs) : EncodesAllBy E ord t (v :: vs) (x :: xs)

/-- Entries in order, keys printed by `show`. -/
inductive EncodesEntriesBy (E : Env) (ord : List (Bytes × Val) → List (Bytes × Val)) : (Bytes → Bytes) → Ty → List (Bytes × Val) → List (Bytes × FTree) → Prop
  | nil (f : Bytes → Bytes) (t : Ty) : EncodesEntriesBy E ord f t [] []
  | cons {f t k v ms x xs} (h : EncodesBy E ord t v x) (hs : EncodesEntriesBy E ord f t ms xs) :
      EncodesEntriesBy E ord f t ((k, v) :: ms) ((f k, x) :: xs)

/-- The fields of a struct in declaration order, each under its name. -/
inductive EncodesFieldsBy (E : Env) (ord : List (Bytes × Val) → List (Bytes × Val)) : List (Bytes × Ty) → List Val → List (Bytes × FTree) → Prop
  | nil : EncodesFieldsBy E ord [] [] []
  | cons {name t fs v vs x xs} (h : EncodesBy E ord t v x) (hs : EncodesFieldsBy E ord fs vs xs) :
      EncodesFieldsBy E ord ((name, t) :: fs) (v :: vs) ((name, x) :: xs)

end

mutual

theorem EncodesBy.unique {E : Env} {ord : List (Bytes × Val) → List (Bytes × Val)} :
    ∀ {t : Ty} {v : Val} {x y : FTree}, EncodesBy E ord t v x → EncodesBy E ord t v y → x = y
  | _, _, _, _, .unit, h => by cases h; rfl
  | _, _, _, _, .bool _, h => by cases h; rfl
  | _, _, _, _, .string _, h => by cases h; rfl
  | _, _, _, _, .unsigned bits n, h => by
    generalize hz : (n : Int) = z at h
    cases h
    rw [Int.ofNat.inj hz]
  | _, _, _, _, .signed _ _, h => by cases h; rfl
  | _, _, _, _, .f32 _, h => by cases h; rfl
  | _, _, _, _, .f64 _, h => by cases h; rfl
  | _, _, _, _, .numU t n ht, h => by rcases ht with rfl | rfl <;> (cases h; rfl)
  | _, _, _, _, .numI t z ht, h => by rcases ht with rfl | rfl <;> (cases h; rfl)
  | _, _, _, _, .numF t x ht, h => by rcases ht with rfl | rfl <;> (cases h; rfl)
  | _, _, _, _, .vNull, h => by cases h; rfl
  | _, _, _, _, .vBool _, h => by cases h; rfl
  | _, _, _, _, .vStr _, h => by cases h; rfl
  | _, _, _, _, .array ht h1, h => by
    rcases ht with rfl | rfl <;> (cases h with | array _ h2 => rw [EncodesAllBy.unique h1 h2])
  | _, _, _, _, .object ht h1, h => by
    rcases ht with rfl | rfl <;> (cases h with | object _ h2 => rw [EncodesEntriesBy.unique h1 h2])
  | _, _, _, _, .box h1, h => by cases h with | box h2 => exact EncodesBy.unique h1 h2
  | _, _, _, _, .none _, h => by cases h; rfl
  | _, _, _, _, .some h1, h => by cases h with | some h2 => exact EncodesBy.unique h1 h2
  | _, _, _, _, .tup h1 h1', h => by
    cases h with
    | array ht _ => rcases ht with e | e <;> cases e
    | tup h2 h2' => rw [EncodesBy.unique h1 h2, EncodesBy.unique h1' h2']
  | _, _, _, _, .vec h1, h => by
    cases h with
    | array ht _ => rcases ht with e | e <;> cases e
    | vec h2 => rw [EncodesAllBy.unique h1 h2]
  | _, _, _, _, .arr h1, h => by
    cases h with
    | array ht _ => rcases ht with e | e <;> cases e
    | arr h2 => rw [EncodesAllBy.unique h1 h2]
  | _, _, _, _, .hmap h1, h => by
    cases h with
    | object ht _ => rcases ht with e | e <;> cases e
    | hmap h2 => rw [EncodesEntriesBy.unique h1 h2]
  | _, _, _, _, .bmap h1, h => by
    cases h with
    | object ht _ => rcases ht with e | e <;> cases e
    | bmap h2 => rw [EncodesEntriesBy.unique h1 h2]
  | _, _, _, _, .strct h1, h => by
    cases h with
    | strct h2 => rw [EncodesFieldsBy.unique h1 h2]
  | _, _, _, _, .enm h1, h => by
    cases h with
    | enm h2 => rw [h1] at h2; cases h2; rfl

theorem EncodesAllBy.unique {E : Env} {ord : List (Bytes × Val) → List (Bytes × Val)} :
    ∀ {t : Ty} {vs : List Val} {xs ys : List FTree}, EncodesAllBy E ord t vs xs → EncodesAllBy E ord t vs ys → xs = ys
  | _, _, _, _, .nil _, h => by cases h; rfl
  | _, _, _, _, .cons h1 hs1, h => by
    cases h with
    | cons h2 hs2 => rw [EncodesBy.unique h1 h2, EncodesAllBy.unique hs1 hs2]

theorem EncodesEntriesBy.unique {E : Env} {ord : List (Bytes × Val) → List (Bytes × Val)} :
    ∀ {g : Bytes → Bytes} {t : Ty} {ms : List (Bytes × Val)} {xs ys : List (Bytes × FTree)},
    EncodesEntriesBy E ord g t ms xs → EncodesEntriesBy E ord g t ms ys → xs = ys
  | _, _, _, _, _, .nil _ _, h => by cases h; rfl
  | _, _, _, _, _, .cons h1 hs1, h => by
    cases h with
    | cons h2 hs2 => rw [EncodesBy.unique h1 h2, EncodesEntriesBy.unique hs1 hs2]

theorem EncodesFieldsBy.unique {E : Env} {ord : List (Bytes × Val) → List (Bytes × Val)} :
    ∀ {fs : List (Bytes × Ty)} {vs : List Val} {xs ys : List (Bytes × FTree)},
    EncodesFieldsBy E ord fs vs xs → EncodesFieldsBy E ord fs vs ys → xs = ys
  | _, _, _, _, .nil, h => by cases h; rfl
  | _, _, _, _, .cons h1 hs1, h => by
    cases h with
    | cons h2 hs2 => rw [EncodesBy.unique h1 h2, EncodesFieldsBy.unique hs1 hs2]

end

mutual

theorem EncodesBy.encodes {E : Env} {ord : List (Bytes × Val) → List (Bytes × Val)} (ho : ∀ ms, (ord ms).Perm ms) :
    ∀ {t : Ty} {v : Val} {x : FTree}, EncodesBy E ord t v x → Encodes E t v x
  | _, _, _, .unit => .unit
  | _, _, _, .bool _ => .bool _
  | _, _, _, .string _ => .string _
  | _, _, _, .unsigned bits n => .unsigned bits n
  | _, _, _, .signed bits z => .signed bits z
  | _, _, _, .f32 _ => .f32 _
  | _, _, _, .f64 _ => .f64 _
  | _, _, _, .numU t n ht => .numU t n ht
  | _, _, _, .numI t z ht => .numI t z ht
  | _, _, _, .numF t x ht => .numF t x ht
  | _, _, _, .vNull => .vNull
  | _, _, _, .vBool _ => .vBool _
  | _, _, _, .vStr _ => .vStr _
  | _, _, _, .array ht h => .array ht (EncodesAllBy.encodes ho h)
  | _, _, _, .object ht h => .object ht (EncodesEntriesBy.encodes ho h)
  | _, _, _, .box h => .box (EncodesBy.encodes ho h)
  | _, _, _, .none t => .none t
  | _, _, _, .some h => .some (EncodesBy.encodes ho h)
  | _, _, _, .tup h h' => .tup (EncodesBy.encodes ho h) (EncodesBy.encodes ho h')
  | _, _, _, .vec h => .vec (EncodesAllBy.encodes ho h)
  | _, _, _, .arr h => .arr (EncodesAllBy.encodes ho h)
  | _, _, _, .hmap h => .hmap (ho _) (EncodesEntriesBy.encodes ho h)
  | _, _, _, .bmap h => .bmap (EncodesEntriesBy.encodes ho h)
  | _, _, _, .strct h => .strct (EncodesFieldsBy.encodes ho h)
  | _, _, _, .enm h => .enm h

theorem EncodesAllBy.encodes {E : Env} {ord : List (Bytes × Val) → List (Bytes × Val)} (ho : ∀ ms, (ord ms).Perm ms) :
    ∀ {t : Ty} {vs : List Val} {xs : List FTree}, EncodesAllBy E ord t vs xs → EncodesAll E t vs xs
  | _, _, _, .nil t => .nil t
  | _, _, _, .cons h hs => .cons (EncodesBy.encodes ho h) (EncodesAllBy.encodes ho hs)

theorem EncodesEntriesBy.encodes {E : Env} {ord : List (Bytes × Val) → List (Bytes × Val)} (ho : ∀ ms, (ord ms).Perm ms) :
    ∀ {g : Bytes → Bytes} {t : Ty} {ms : List (Bytes × Val)} {xs : List (Bytes × FTree)}, EncodesEntriesBy E ord g t ms xs → EncodesEntries E g t ms xs
  | _, _, _, _, .nil g t => .nil g t
  | _, _, _, _, .cons h hs => .cons (EncodesBy.encodes ho h) (EncodesEntriesBy.encodes ho hs)

theorem EncodesFieldsBy.encodes {E : Env} {ord : List (Bytes × Val) → List (Bytes × Val)} (ho : ∀ ms, (ord ms).Perm ms) :
    ∀ {fs : List (Bytes × Ty)} {vs : List Val} {xs : List (Bytes × FTree)}, EncodesFieldsBy E ord fs vs xs → EncodesFields E fs vs xs
  | _, _, _, .nil => .nil
  | _, _, _, .cons h hs => .cons (EncodesBy.encodes ho h) (EncodesFieldsBy.encodes ho hs)

end

section
variable (E : Env) (order : Nat → List (Bytes × Val) → List (Bytes × Val)) (ord : List (Bytes × Val) → List (Bytes × Val))

/-- The claim for one value. -/
def GoodBy (t : Ty) (v : Val) : Prop :=
  ∀ h : SHeap, h.Fresh → ∃ x h', Streams (serLib E order) (t, v) h x h' ∧ SHeap.Same h h' ∧ EncodesBy E ord t v x

variable {E order ord}

theorem good_leaf_by {t : Ty} {v : Val} {f : Frag Nat Nat} {x : FTree} (hb : ∀ h, beginVal E order t v h = (some f, h)) (hl : LeafFrag f x)
    (he : EncodesBy E ord t v x) : GoodBy E order ord t v :=
  fun h _ => ⟨x, h, .leaf (P := serLib E order) (hb h) hl, .refl h, he⟩

theorem good_seq_by {t : Ty} {v : Val} {s : Stream} (hb : ∀ h, beginVal E order t v h = newSeq s h)
    (hs : ∀ (h : SHeap) (q : Nat), h.Fresh → h.cells q = some s → ∃ xs h' s', StreamsSeq (serLib E order) q h xs h' ∧ SHeap.Same (h.set q s') h' ∧
      EncodesBy E ord t v (.seq xs)) : GoodBy E order ord t v := by
  intro h f
  obtain ⟨xs, h', s', h1, h2, h3⟩ := hs (h.alloc s).2 h.next (SHeap.alloc_fresh f s) (SHeap.alloc_cell h s)
  exact ⟨.seq xs, h'.free h.next, .seq (P := serLib E order) (hb h) h1, SHeap.free_same f h2, h3⟩

theorem good_map_by {t : Ty} {v : Val} {s : SHeap → Stream} (hb : ∀ h, beginVal E order t v h = newMap (s h) h)
    (hs : ∀ (h0 h : SHeap) (q : Nat), h.Fresh → h.cells q = some (s h0) → ∃ xs h' s', StreamsMap (serLib E order) q h xs h' ∧
      SHeap.Same (h.set q s') h' ∧ EncodesBy E ord t v (.map xs)) : GoodBy E order ord t v := by
  intro h f
  obtain ⟨xs, h', s', h1, h2, h3⟩ := hs h (h.alloc (s h)).2 h.next (SHeap.alloc_fresh f _) (SHeap.alloc_cell h _)
  exact ⟨.map xs, h'.free h.next, .map (P := serLib E order) (hb h) h1, SHeap.free_same f h2, h3⟩

/-- `SliceStream`. -/
theorem slice_streams_by {t : Ty} : ∀ (rest : List Val) (h : SHeap) (q : Nat), (∀ v ∈ rest, GoodBy E order ord t v) → h.Fresh →
    h.cells q = some (.slice t rest) → ∃ xs h', StreamsSeq (serLib E order) q h xs h' ∧ SHeap.Same (h.set q (.slice t [])) h' ∧
      EncodesAllBy E ord t rest xs
  | [], h, q, _, f, hq => by
    refine ⟨[], h.set q (.slice t []), .nil (P := serLib E order) ?_, .refl _, .nil t⟩
    show seqNextLib q h = _
    rw [seqNextLib, hq]; rfl
  | v :: rest, h, q, hg, f, hq => by
    have hn : seqNextLib q h = (some (some (t, v)), h.set q (.slice t rest)) := by rw [seqNextLib, hq]
    have f1 := f.set hq (.slice t rest)
    obtain ⟨x, h2, hx, s2, e2⟩ := hg v (by simp) _ f1
    have hc : h2.cells q = some (.slice t rest) := by rw [s2.cells]; simp [SHeap.set]
    obtain ⟨xs, h3, hxs, s3, e3⟩ := slice_streams_by rest h2 q (fun u hu => hg u (by simp [hu])) (s2.fresh f1) hc
    refine ⟨x :: xs, h3, .cons (P := serLib E order) hn hx hxs, ?_, .cons e2 e3⟩
    have := s2.set q (.slice t [])
    rw [SHeap.set_set] at this
    exact this.trans s3

/-- `HashMapStream`, `BTreeMapStream`. -/
theorem map_streams_by {k : Nat} {t : Ty} : ∀ (rest : List (Bytes × Val)) (h : SHeap) (q : Nat), (∀ m ∈ rest, GoodBy E order ord t m.2) → h.Fresh →
    h.cells q = some (.map k t rest) → ∃ xs h', StreamsMap (serLib E order) q h xs h' ∧ SHeap.Same (h.set q (.map k t [])) h' ∧
      EncodesEntriesBy E ord (E.keyShow k) t rest xs
  | [], h, q, _, f, hq => by
    refine ⟨[], h.set q (.map k t []), .nil (P := serLib E order) ?_, .refl _, .nil _ t⟩
    show mapNextLib E q h = _
    rw [mapNextLib, hq]; rfl
  | (key, v) :: rest, h, q, hg, f, hq => by
    have hn : mapNextLib E q h = (some (some (E.keyShow k key, (t, v))), h.set q (.map k t rest)) := by rw [mapNextLib, hq]
    have f1 := f.set hq (.map k t rest)
    obtain ⟨x, h2, hx, s2, e2⟩ := hg (key, v) (by simp) _ f1
    have hc : h2.cells q = some (.map k t rest) := by rw [s2.cells]; simp [SHeap.set]
    obtain ⟨xs, h3, hxs, s3, e3⟩ := map_streams_by rest h2 q (fun u hu => hg u (by simp [hu])) (s2.fresh f1) hc
    refine ⟨(E.keyShow k key, x) :: xs, h3, .cons (P := serLib E order) hn hx hxs, ?_, .cons e2 e3⟩
    have := s2.set q (.map k t [])
    rw [SHeap.set_set] at this
    exact this.trans s3

/-- `ObjectIter`. -/
theorem object_streams_by : ∀ (rest : List (Bytes × Val)) (h : SHeap) (q : Nat), (∀ m ∈ rest, GoodBy E order ord .value m.2) → h.Fresh →
    h.cells q = some (.object rest) → ∃ xs h', StreamsMap (serLib E order) q h xs h' ∧ SHeap.Same (h.set q (.object [])) h' ∧
      EncodesEntriesBy E ord (fun k => k) .value rest xs
  | [], h, q, _, f, hq => by
    refine ⟨[], h.set q (.object []), .nil (P := serLib E order) ?_, .refl _, .nil _ _⟩
    show mapNextLib E q h = _
    rw [mapNextLib, hq]; rfl
  | (key, v) :: rest, h, q, hg, f, hq => by
    have hn : mapNextLib E q h = (some (some (key, (.value, v))), h.set q (.object rest)) := by rw [mapNextLib, hq]
    have f1 := f.set hq (.object rest)
    obtain ⟨x, h2, hx, s2, e2⟩ := hg (key, v) (by simp) _ f1
    have hc : h2.cells q = some (.object rest) := by rw [s2.cells]; simp [SHeap.set]
    obtain ⟨xs, h3, hxs, s3, e3⟩ := object_streams_by rest h2 q (fun u hu => hg u (by simp [hu])) (s2.fresh f1) hc
    refine ⟨(key, x) :: xs, h3, .cons (P := serLib E order) hn hx hxs, ?_, .cons e2 e3⟩
    have := s2.set q (.object [])
    rw [SHeap.set_set] at this
    exact this.trans s3

/-- Derived `__Map`, from field number `state` on. -/
theorem strct_streams_by {i : Nat} {data : List Val} : ∀ (fs : List (Bytes × Ty)) (vs : List Val) (state : Nat) (h : SHeap) (q : Nat),
    (E.fields i).drop state = fs → data.drop state = vs → vs.length = fs.length →
    (∀ (j : Nat) (f : Bytes × Ty) (v : Val), (E.fields i)[j]? = some f → data[j]? = some v → GoodBy E order ord f.2 v) → h.Fresh →
    h.cells q = some (.strct i data state) → ∃ xs h' s', StreamsMap (serLib E order) q h xs h' ∧ SHeap.Same (h.set q s') h' ∧
      EncodesFieldsBy E ord fs vs xs
  | [], vs, state, h, q, hf, hv, hl, hg, f, hq => by
    have e : vs = [] := List.length_eq_zero_iff.1 hl
    subst e
    refine ⟨[], h.set q (.strct i data (state + 1)), _, .nil (P := serLib E order) ?_, .refl _, .nil⟩
    show mapNextLib E q h = _
    have : (E.fields i)[state]? = none := by
      rw [List.getElem?_eq_none_iff]; exact List.drop_eq_nil_iff.1 hf
    rw [mapNextLib, hq]; simp only [this]; rfl
  | (name, t) :: fs, [], state, h, q, hf, hv, hl, hg, f, hq => by simp at hl
  | (name, t) :: fs, v :: vs, state, h, q, hf, hv, hl, hg, f, hq => by
    have h1 : (E.fields i)[state]? = some (name, t) := by
      have := congrArg (·[0]?) hf; simpa using this
    have h2 : data[state]? = some v := by
      have := congrArg (·[0]?) hv; simpa using this
    have hn : mapNextLib E q h = (some (some (name, (t, v))), h.set q (.strct i data (state + 1))) := by
      rw [mapNextLib, hq]; simp only [h1, h2]
    have f1 := f.set hq (.strct i data (state + 1))
    obtain ⟨x, h2, hx, s2, e2⟩ := hg state _ v h1 h2 _ f1
    have hc : h2.cells q = some (.strct i data (state + 1)) := by rw [s2.cells]; simp [SHeap.set]
    obtain ⟨xs, h3, s', hxs, s3, e3⟩ := strct_streams_by fs vs (state + 1) h2 q
      (by rw [← List.drop_drop, hf]; rfl) (by rw [← List.drop_drop, hv]; rfl) (by simpa using hl) hg (s2.fresh f1) hc
    refine ⟨(name, x) :: xs, h3, s', .cons (P := serLib E order) hn hx hxs, ?_, .cons e2 e3⟩
    have := s2.set q s'
    rw [SHeap.set_set] at this
    exact this.trans s3

/-- Every value of a type streams one of its encodings. -/
theorem hasTy_good_by (ho : ∀ n ms, (order n ms).Perm ms) (hs : ∀ n ms, order n ms = ord ms) {t : Ty} {v : Val} (h : HasTy E t v) : GoodBy E order ord t v := by
  induction h with
  | unit => exact good_leaf_by (fun _ => rfl) .null .unit
  | bool b => exact good_leaf_by (fun _ => rfl) (.bool b) (.bool b)
  | string h => exact good_leaf_by (fun _ => rfl) (.str _) (.string _)
  | @int signed bits z hb hz =>
    cases signed with
    | true => exact good_leaf_by (fun _ => rfl) (.i64 z) (.signed bits z)
    | false =>
      have : 0 ≤ z := by simpa [lowest] using hz.1
      obtain ⟨n, rfl⟩ := Int.eq_ofNat_of_zero_le this
      exact good_leaf_by (fun _ => rfl) (.u64 n) (.unsigned bits n)
  | f32 h => exact good_leaf_by (fun _ => rfl) (.f64 _) (.f32 _)
  | f64 h => exact good_leaf_by (fun _ => rfl) (.f64 _) (.f64 _)
  | numU ht h => rcases ht with rfl | rfl <;> exact good_leaf_by (fun _ => rfl) (.u64 _) (.numU _ _ (by simp))
  | numI ht h => rcases ht with rfl | rfl <;> exact good_leaf_by (fun _ => rfl) (.i64 _) (.numI _ _ (by simp))
  | numF ht h => rcases ht with rfl | rfl <;> exact good_leaf_by (fun _ => rfl) (.f64 _) (.numF _ _ (by simp))
  | vNull => exact good_leaf_by (fun _ => rfl) .null .vNull
  | vBool b => exact good_leaf_by (fun _ => rfl) (.bool b) (.vBool b)
  | vStr h => exact good_leaf_by (fun _ => rfl) (.str _) (.vStr _)
  | @array t vs ht h ih =>
    rcases ht with rfl | rfl <;>
    · refine good_seq_by (s := .slice .value vs) (fun _ => rfl) fun h q f hq => ?_
      obtain ⟨xs, h', h1, h2, h3⟩ := slice_streams_by vs h q ih f hq
      exact ⟨xs, h', _, h1, h2, .array (by simp) h3⟩
  | @object t ms ht hk hs h ih =>
    rcases ht with rfl | rfl <;>
    · refine good_map_by (s := fun _ => .object ms) (fun _ => rfl) fun _ h q f hq => ?_
      obtain ⟨xs, h', h1, h2, h3⟩ := object_streams_by ms h q ih f hq
      exact ⟨xs, h', _, h1, h2, .object (by simp) h3⟩
  | @box t v h ih =>
    intro h f
    obtain ⟨x, h', h1, h2, h3⟩ := ih h f
    exact ⟨x, h', streams_congr (P := serLib E order) (s := (t, v)) (s' := (.box t, .box v)) (by simp [serLib, beginVal]) h1, h2, .box h3⟩
  | none t => exact good_leaf_by (fun _ => rfl) .null (.none t)
  | @some t v h ih =>
    intro h f
    obtain ⟨x, h', h1, h2, h3⟩ := ih h f
    exact ⟨x, h', streams_congr (P := serLib E order) (s := (t, v)) (s' := (.opt t, .optSome v)) (by simp [serLib, beginVal]) h1, h2, .some h3⟩
  | @tup a b x y hx hy ihx ihy =>
    refine good_seq_by (s := .tuple a b x y 0) (fun _ => rfl) fun h q f hq => ?_
    have n1 : seqNextLib q h = (some (some (a, x)), h.set q (.tuple a b x y 1)) := by rw [seqNextLib, hq]; rfl
    have f1 := f.set hq (.tuple a b x y 1)
    obtain ⟨tx, h2, hx, s2, e2⟩ := ihx _ f1
    have c2 : h2.cells q = some (.tuple a b x y 1) := by rw [s2.cells]; simp [SHeap.set]
    have n2 : seqNextLib q h2 = (some (some (b, y)), h2.set q (.tuple a b x y 2)) := by rw [seqNextLib, c2]; rfl
    have f2 := (s2.fresh f1).set c2 (.tuple a b x y 2)
    obtain ⟨ty, h3, hy, s3, e3⟩ := ihy _ f2
    have c3 : h3.cells q = some (.tuple a b x y 2) := by rw [s3.cells]; simp [SHeap.set]
    have n3 : seqNextLib q h3 = (some none, h3.set q (.tuple a b x y 3)) := by rw [seqNextLib, c3]; rfl
    refine ⟨[tx, ty], h3.set q (.tuple a b x y 3), .tuple a b x y 3,
      .cons (P := serLib E order) n1 hx (.cons (P := serLib E order) n2 hy (.nil (P := serLib E order) n3)), ?_, .tup e2 e3⟩
    have k1 := s2.set q (.tuple a b x y 3)
    rw [SHeap.set_set] at k1
    have k2 := s3.set q (.tuple a b x y 3)
    rw [SHeap.set_set] at k2
    exact k1.trans k2
  | @vec t vs h ih =>
    refine good_seq_by (s := .slice t vs) (fun _ => rfl) fun h q f hq => ?_
    obtain ⟨xs, h', h1, h2, h3⟩ := slice_streams_by vs h q ih f hq
    exact ⟨xs, h', _, h1, h2, .vec h3⟩
  | @arr t n vs hn h ih =>
    refine good_seq_by (s := .slice t vs) (fun _ => rfl) fun h q f hq => ?_
    obtain ⟨xs, h', h1, h2, h3⟩ := slice_streams_by vs h q ih f hq
    exact ⟨xs, h', _, h1, h2, .arr h3⟩
  | @hmap k t ms hk hu h ih =>
    refine good_map_by (s := fun h => .map k t (order h.next ms)) (fun _ => rfl) fun h0 h q f hq => ?_
    obtain ⟨xs, h', h1, h2, h3⟩ := map_streams_by _ h q (fun m hm => ih m ((ho _ _).mem_iff.1 hm)) f hq
    exact ⟨xs, h', _, h1, h2, .hmap (hs _ _ ▸ h3)⟩
  | @bmap k t ms hs hu h ih =>
    refine good_map_by (s := fun _ => .map k t ms) (fun _ => rfl) fun _ h q f hq => ?_
    obtain ⟨xs, h', h1, h2, h3⟩ := map_streams_by ms h q ih f hq
    exact ⟨xs, h', _, h1, h2, .bmap h3⟩
  | @strct i vs hn h ih =>
    refine good_map_by (s := fun _ => .strct i vs 0) (fun _ => rfl) fun _ h q f hq => ?_
    obtain ⟨xs, h', s', h1, h2, h3⟩ := strct_streams_by (E.fields i) vs 0 h q rfl rfl hn ih f hq
    exact ⟨xs, h', s', h1, h2, .strct h3⟩
  | @enm i j h =>
    have hj : (E.variants i)[j]? = some (E.variants i)[j] := List.getElem?_eq_getElem h
    exact good_leaf_by (f := .str (E.variants i)[j]) (fun _ => by simp only [beginVal, hj]; rfl) (.str _) (.enm hj)

end

end Miniserde
