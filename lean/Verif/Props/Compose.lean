import Verif.Proof.Compose

/-!
# Texts and values compose
-/

namespace Miniserde

variable {ryu : F64 → Bytes} {lit : F64 → NumLit}

/-- **C50.** Different values have different texts (of types that round-trip; types without hash maps, whose text is not unique). -/
theorem C50_injective (E : Env) (order : Nat → List (Bytes × Val) → List (Bytes × Val)) (ho : ∀ n ms, (order n ms).Perm ms) (hE : E.Utf8)
    (hr : RyuSyntax ryu lit) (hf : ∀ i, ∀ f ∈ E.fields i, f.2.noHash = true) (t : Ty) (ht : t.noHash = true) (v v' : Val)
    (h : HasTy E t v) (hp : Plain E t v) (h' : HasTy E t v') (hp' : Plain E t v') (o : Bytes)
    (hprint : PrintsAs E order ryu t v o) (hprint' : PrintsAs E order ryu t v' o) : v = v' := by
  have h1 := C33_round_trip_exact E order ho hE hr hf t ht v h hp o hprint
  have h2 := C33_round_trip_exact E order ho hE hr hf t ht v' h' hp' o hprint'
  rw [h1] at h2
  cases h2
  rfl

/-- **C50.** The same with hash maps: values with the same text are equal up to the order of hash maps (both equal what is read back). -/
theorem C50_injective_hash (E : Env) (order order' : Nat → List (Bytes × Val) → List (Bytes × Val)) (ho : ∀ n ms, (order n ms).Perm ms)
    (ho' : ∀ n ms, (order' n ms).Perm ms) (hE : E.Utf8) (hr : RyuSyntax ryu lit) (t : Ty) (v v' : Val)
    (h : HasTy E t v) (hp : Plain E t v) (h' : HasTy E t v') (hp' : Plain E t v') (o : Bytes)
    (hprint : PrintsAs E order ryu t v o) (hprint' : PrintsAs E order' ryu t v' o) : ∃ u, Same E t v u ∧ Same E t v' u := by
  obtain ⟨u, h1, h2⟩ := C33_round_trip E order ho hE hr t v h hp o hprint
  obtain ⟨u', h3, h4⟩ := C33_round_trip E order' ho' hE hr t v' h' hp' o hprint'
  rw [h1] at h3
  cases h3
  exact ⟨u, h2, h4⟩

/-- **C50.** `Box<T>` (and `&T`, `Cow<T>`) and `Some(v)` are written like `v`; `None` like `()`; an array, an `Array` and a `Value::Array` like a `Vec`; an `Object`
like a `Value::Object`. -/
theorem C50_wrappers (E : Env) (order : Nat → List (Bytes × Val) → List (Bytes × Val)) (o : Bytes) :
    (∀ t v, PrintsAs E order ryu (.box t) (.box v) o ↔ PrintsAs E order ryu t v o) ∧
    (∀ t v, PrintsAs E order ryu (.opt t) (.optSome v) o ↔ PrintsAs E order ryu t v o) ∧
    (∀ t, PrintsAs E order ryu (.opt t) .optNone o ↔ PrintsAs E order ryu .unit .null o) ∧
    (∀ t n vs, PrintsAs E order ryu (.arr t n) (.seq vs) o ↔ PrintsAs E order ryu (.vec t) (.seq vs) o) ∧
    (∀ vs, PrintsAs E order ryu .array (.seq vs) o ↔ PrintsAs E order ryu (.vec .value) (.seq vs) o) ∧
    (∀ vs, PrintsAs E order ryu .value (.seq vs) o ↔ PrintsAs E order ryu (.vec .value) (.seq vs) o) ∧
    (∀ ms, PrintsAs E order ryu .value (.map ms) o ↔ PrintsAs E order ryu .object (.map ms) o) := by
  have key : ∀ a b : Ty × Val, (serLib E order).begin a SHeap.empty = (serLib E order).begin b SHeap.empty →
      (PrintsAs E order ryu a.1 a.2 o ↔ PrintsAs E order ryu b.1 b.2 o) := by
    intro a b e
    have : ∀ n, toStringN (serLib E order) ryu n a SHeap.empty = toStringN (serLib E order) ryu n b SHeap.empty := by
      intro n
      unfold toStringN beginWith
      rw [e]
    unfold PrintsAs Prints
    exact exists_congr fun h => exists_congr fun n => by
      show toStringN (serLib E order) ryu n a SHeap.empty = _ ↔ toStringN (serLib E order) ryu n b SHeap.empty = _
      rw [this]
  refine ⟨fun t v => key (_, _) (_, _) rfl, fun t v => key (_, _) (_, _) rfl, fun t => key (_, _) (_, _) rfl, fun t n vs => key (_, _) (_, _) rfl,
    fun vs => key (_, _) (_, _) rfl, fun vs => key (_, _) (_, _) rfl, fun ms => key (_, _) (_, _) rfl⟩

/-! ## C51 -/

theorem encodesAll_each {E : Env} {t : Ty} : ∀ {vs : List Val} {xs : List FTree}, EncodesAll E t vs xs → Each (Encodes E t) vs xs
  | [], _, .nil _ => .nil
  | _ :: _, _, .cons h hs => .cons h (encodesAll_each hs)

/-- The text of a value without hash maps is that of its encoding. -/
theorem prints_of_encodes {E : Env} {order : Nat → List (Bytes × Val) → List (Bytes × Val)} (ho : ∀ n ms, (order n ms).Perm ms) (hE : E.Utf8)
    (hr : RyuSyntax ryu lit) (hf : ∀ i, ∀ f ∈ E.fields i, f.2.noHash = true) {t : Ty} (ht : t.noHash = true) {v : Val} (h : HasTy E t v) {x : FTree}
    (hx : Encodes E t v x) : PrintsAs E order ryu t v (compact (x.json lit)) := by
  obtain ⟨o, h', hp, -, -, y, hy, -, e, -⟩ := C28_total E order ho hE hr t v h
  rw [Encodes.unique hf ht hx hy, ← e]
  exact ⟨h', hp⟩

/-- **C51.** The text of a `Vec` is the texts of its elements, separated by commas, in brackets. -/
theorem C51_write_vec (E : Env) (order : Nat → List (Bytes × Val) → List (Bytes × Val)) (ho : ∀ n ms, (order n ms).Perm ms) (hE : E.Utf8)
    (hr : RyuSyntax ryu lit) (hf : ∀ i, ∀ f ∈ E.fields i, f.2.noHash = true) (t : Ty) (ht : t.noHash = true) (vs : List Val)
    (h : HasTy E (.vec t) (.seq vs)) (o : Bytes) (hprint : PrintsAs E order ryu (.vec t) (.seq vs) o) :
    ∃ os, o = arrayText os ∧ Each (PrintsAs E order ryu t) vs os := by
  obtain ⟨x, hx, e, -, -⟩ := prints_encodes E order ho hE hr h hprint
  have hv : ∀ v ∈ vs, HasTy E t v := by
    cases h with
    | vec h => exact h
    | array ht _ => rcases ht with e | e <;> cases e
  cases hx with
  | array ht _ => rcases ht with e | e <;> cases e
  | vec hs =>
    rename_i xs
    refine ⟨xs.map fun x => compact (x.json lit), ?_, ?_⟩
    · rw [e]
      show 0x5B :: (compactElems (FTree.jsons lit xs) ++ [0x5D]) = _
      have : FTree.jsons lit xs = xs.map (FTree.json lit) := by
        clear hs e
        induction xs with
        | nil => rfl
        | cons x xs ih => simp [FTree.jsons, ih]
      rw [compactElems_joined, this, List.map_map]
      rfl
    · have he := encodesAll_each hs
      clear e hs h hprint
      induction he with
      | nil => exact .nil
      | cons h1 _ ih =>
        exact .cons (prints_of_encodes ho hE hr hf ht (hv _ List.mem_cons_self) h1) (ih fun v hm => hv v (List.mem_cons_of_mem _ hm))

/-- **C51.** The text of a derived struct is `{"name":text,...}` with the fields' own texts. -/
theorem C51_write_struct (E : Env) (order : Nat → List (Bytes × Val) → List (Bytes × Val)) (ho : ∀ n ms, (order n ms).Perm ms) (hE : E.Utf8)
    (hr : RyuSyntax ryu lit) (hf : ∀ i, ∀ f ∈ E.fields i, f.2.noHash = true) (i : Nat) (vs : List Val)
    (h : HasTy E (.strct i) (.strct vs)) (o : Bytes) (hprint : PrintsAs E order ryu (.strct i) (.strct vs) o) :
    ∃ os, o = objectText (((E.fields i).map Prod.fst).zip os) ∧ Each (fun fv o => PrintsAs E order ryu fv.1.2 fv.2 o) ((E.fields i).zip vs) os := by
  obtain ⟨x, hx, e, -, -⟩ := prints_encodes E order ho hE hr h hprint
  have hv : ∀ fv ∈ (E.fields i).zip vs, HasTy E fv.1.2 fv.2 := by
    cases h with
    | strct hn h =>
      intro fv hm
      obtain ⟨j, hj⟩ := List.mem_iff_getElem?.1 hm
      rw [List.getElem?_zip_eq_some] at hj
      exact h j fv.1 fv.2 hj.1 hj.2
  have hh : ∀ fv ∈ (E.fields i).zip vs, fv.1.2.noHash = true := fun fv hm => hf i _ (List.of_mem_zip hm).1
  cases hx with
  | strct hs =>
    rename_i xs
    have hjm : ∀ xs : List (Bytes × FTree), FTree.jsonMembers lit xs = xs.map fun m => (m.1, m.2.json lit) := by
      intro xs
      induction xs with
      | nil => rfl
      | cons x xs ih => obtain ⟨k, x⟩ := x; simp [FTree.jsonMembers, ih]
    have key : ∀ {fs : List (Bytes × Ty)} {us : List Val} {xs : List (Bytes × FTree)}, EncodesFields E fs us xs →
        (∀ fv ∈ fs.zip us, HasTy E fv.1.2 fv.2) → (∀ fv ∈ fs.zip us, fv.1.2.noHash = true) →
        xs.map (fun m => (m.1, compact (m.2.json lit))) = (fs.map Prod.fst).zip (xs.map fun m => compact (m.2.json lit)) ∧
        Each (fun fv o => PrintsAs E order ryu fv.1.2 fv.2 o) (fs.zip us) (xs.map fun m => compact (m.2.json lit)) := by
      intro fs us xs hs
      induction fs generalizing us xs with
      | nil => cases hs; intro _ _; exact ⟨rfl, .nil⟩
      | cons f fs ih =>
        cases hs with
        | cons h1 hs =>
          intro g1 g2
          obtain ⟨i1, i2⟩ := ih hs (fun fv hm => g1 fv (List.mem_cons_of_mem _ hm)) fun fv hm => g2 fv (List.mem_cons_of_mem _ hm)
          refine ⟨by simp [i1], .cons ?_ i2⟩
          exact prints_of_encodes ho hE hr hf (g2 _ List.mem_cons_self) (g1 _ List.mem_cons_self) h1
    obtain ⟨k1, k2⟩ := key hs hv hh
    refine ⟨_, ?_, k2⟩
    rw [e]
    show 0x7B :: (compactMembers (FTree.jsonMembers lit xs) ++ [0x7D]) = _
    rw [compactMembers_joined, hjm, List.map_map]
    unfold objectText
    rw [← k1]
    simp only [List.map_map]
    rfl

theorem decoded_each {E : Env} {t : Ty} : ∀ {ss : List Bytes} {js : List Json}, Each JText ss js → ∀ {vs : List Val},
    (DecodedElems E t js vs ↔ Each (fun s v => parseAs E t s = some (.ok v)) ss vs)
  | [], _, .nil, vs => ⟨fun h => by cases h; exact .nil, fun h => by cases h; exact .nil⟩
  | s :: ss, j :: js, .cons hj hs, vs => by
    constructor
    · intro h
      cases h with
      | cons hv h => exact .cons ((parseAs_ok E).2 ⟨j, hj, hv⟩) ((decoded_each hs).1 h)
    · intro h
      cases h with
      | cons hv h =>
        obtain ⟨j', hj', hv'⟩ := (parseAs_ok E).1 hv
        rw [JText.unique hj' hj] at hv'
        exact .cons hv' ((decoded_each hs).2 h)

/-- **C51.** Reading `[s₁,s₂,...]`, where the parts are JSON texts, as a `Vec<T>` is reading each part as a `T`. -/
theorem C51_read_vec (E : Env) (t : Ty) (ss : List Bytes) (hs : ∀ s ∈ ss, ∃ j, JText s j) (v : Val) :
    parseAs E (.vec t) (arrayText ss) = some (.ok v) ↔ ∃ vs, v = .seq vs ∧ Each (fun s v => parseAs E t s = some (.ok v)) ss vs := by
  obtain ⟨js, hj⟩ := each_text hs
  rw [C25_vec]
  constructor
  · rintro ⟨xs, vs, h1, h2, rfl⟩
    have e := JText.unique h1 (arrayText_text hj)
    cases e
    exact ⟨vs, rfl, (decoded_each hj).1 h2⟩
  · rintro ⟨vs, rfl, h⟩
    exact ⟨js, vs, arrayText_text hj, (decoded_each hj).2 h, rfl⟩

/-- **C51.** In particular, texts that can be read as `T` can be put into an array. -/
theorem C51_read_elements (E : Env) (t : Ty) (ss : List Bytes) (vs : List Val) (h : Each (fun s v => parseAs E t s = some (.ok v)) ss vs) :
    parseAs E (.vec t) (arrayText ss) = some (.ok (.seq vs)) := by
  refine (C51_read_vec E t ss ?_ _).2 ⟨vs, rfl, h⟩
  revert ss vs
  intro ss vs h
  induction h with
  | nil => intro s hs; cases hs
  | cons h _ ih =>
    intro s hs
    rcases List.mem_cons.1 hs with rfl | hs
    · obtain ⟨j, hj, -⟩ := (parseAs_ok E).1 h; exact ⟨j, hj⟩
    · exact ih s hs

/-- The members of an object put together from texts. -/
theorem entries_text (E : Env) {parse : Bytes → Option Bytes} {t : Ty} : ∀ {ms : List (Bytes × Bytes)} {kvs : List (Bytes × Val)},
    Each (fun m e => parse m.1 = some e.1 ∧ parseAs E t m.2 = some (.ok e.2)) ms kvs →
    ∃ js, Each (fun (m : Bytes × Bytes) (j : Bytes × Json) => m.1 = j.1 ∧ JText m.2 j.2) ms js ∧ DecodedEntries E parse t js kvs
  | _, _, .nil => ⟨[], .nil, .nil⟩
  | (k, s) :: _, (k', v) :: _, .cons h hs => by
    obtain ⟨js, h1, h2⟩ := entries_text E hs
    obtain ⟨j, hj, hd⟩ := (parseAs_ok E).1 h.2
    exact ⟨(k, j) :: js, .cons ⟨rfl, hj⟩ h1, .cons h.1 hd h2⟩

/-- **C51.** Texts that can be read as `T`, under names that parse as keys, can be put into an object that is read as a `BTreeMap` or `HashMap`: each key is sent to
the last value read for it. -/
theorem C51_read_map (E : Env) (k : Nat) (t : Ty) (ms : List (Bytes × Bytes)) (kvs : List (Bytes × Val))
    (h : Each (fun m e => E.keyParse k m.1 = some e.1 ∧ parseAs E t m.2 = some (.ok e.2)) ms kvs) :
    (StrictLinear (E.keyLt k) → ∃ m, parseAs E (.bmap k t) (objectText ms) = some (.ok (.map m)) ∧ SortedKeys (E.keyLt k) m ∧ ∀ a, m.lookup a = lastOcc a kvs) ∧
    ∃ m, parseAs E (.hmap k t) (objectText ms) = some (.ok (.map m)) ∧ (m.map Prod.fst).Nodup ∧ ∀ a, m.lookup a = lastOcc a kvs := by
  obtain ⟨js, h1, h2⟩ := entries_text E h
  have hj := objectText_text h1
  refine ⟨fun hk => ?_, ?_⟩
  · have hf := foldl_btree hk kvs [] List.Pairwise.nil
    have hm := (C26_btree_map E k hk t (objectText ms) (.map _)).2 ⟨js, kvs, _, hj, h2, rfl, hf.1, fun a => by rw [hf.2 a]; simp [lastOcc]⟩
    exact ⟨_, hm, hf.1, fun a => by rw [hf.2 a]; simp [lastOcc]⟩
  · obtain ⟨v, hv⟩ := (C26_hash_map E k t (objectText ms)).2 js kvs hj h2
    obtain ⟨js', kvs', m, hj', h2', rfl, h3, h4⟩ := (C26_hash_map E k t (objectText ms)).1 v hv
    cases JText.unique hj hj'
    have e := Option.some.inj (((decodeEntries_spec E _ _ _ _).2 h2).symm.trans ((decodeEntries_spec E _ _ _ _).2 h2'))
    subst e
    exact ⟨m, hv, h3, h4⟩

/-- **C51.** Texts that can be read as the field types of a struct (with distinct names) can be put into an object that is read as the struct. -/
theorem C51_read_struct (E : Env) (i : Nat) (hn : ((E.fields i).map Prod.fst).Nodup) (ss : List Bytes) (vs : List Val)
    (hl : vs.length = (E.fields i).length) (hl' : ss.length = (E.fields i).length)
    (h : ∀ (j : Nat) n t s v, (E.fields i)[j]? = some (n, t) → ss[j]? = some s → vs[j]? = some v → parseAs E t s = some (.ok v)) :
    parseAs E (.strct i) (objectText (((E.fields i).map Prod.fst).zip ss)) = some (.ok (.strct vs)) := by
  -- the trees of the parts
  have htrees : ∃ js : List Json, js.length = (E.fields i).length ∧
      Each (fun (m : Bytes × Bytes) (j : Bytes × Json) => m.1 = j.1 ∧ JText m.2 j.2) (((E.fields i).map Prod.fst).zip ss) (((E.fields i).map Prod.fst).zip js) ∧
      ∀ (j : Nat) n t x v, (E.fields i)[j]? = some (n, t) → js[j]? = some x → vs[j]? = some v → decode E x t = some v := by
    have gen : ∀ (fs : List (Bytes × Ty)) (ss : List Bytes) (vs : List Val), vs.length = fs.length → ss.length = fs.length →
        (∀ (j : Nat) n t s v, fs[j]? = some (n, t) → ss[j]? = some s → vs[j]? = some v → parseAs E t s = some (.ok v)) →
        ∃ js : List Json, js.length = fs.length ∧
          Each (fun (m : Bytes × Bytes) (j : Bytes × Json) => m.1 = j.1 ∧ JText m.2 j.2) ((fs.map Prod.fst).zip ss) ((fs.map Prod.fst).zip js) ∧
          ∀ (j : Nat) n t x v, fs[j]? = some (n, t) → js[j]? = some x → vs[j]? = some v → decode E x t = some v := by
      intro fs
      induction fs with
      | nil =>
        intro ss vs h1 h2 _
        exact ⟨[], rfl, by simpa using Each.nil, fun j n t x v hj => by simp at hj⟩
      | cons f fs ih =>
        intro ss vs h1 h2 h
        obtain ⟨n, t⟩ := f
        match ss, vs, h1, h2 with
        | s :: ss, v :: vs, h1, h2 =>
          obtain ⟨js, l1, e1, d1⟩ := ih ss vs (by simpa using h1) (by simpa using h2) fun j n t s v a b c => h (j + 1) n t s v (by simpa using a) (by simpa using b) (by simpa using c)
          obtain ⟨x, hx, hd⟩ := (parseAs_ok E).1 (h 0 n t s v rfl rfl rfl)
          refine ⟨x :: js, by simp [l1], .cons ⟨rfl, hx⟩ e1, ?_⟩
          intro j n' t' x' v' a b c
          cases j with
          | zero =>
            simp at a b c
            obtain ⟨rfl, rfl⟩ := a; subst b; subst c
            exact hd
          | succ j => exact d1 j n' t' x' v' (by simpa using a) (by simpa using b) (by simpa using c)
    exact gen _ _ _ hl hl' h
  obtain ⟨js, hjl, hj, hd⟩ := htrees
  rw [C19_to_C22_struct E i hn]
  have hlook : ∀ (j : Nat) n t x, (E.fields i)[j]? = some (n, t) → js[j]? = some x →
      (E.fields i).lookup n = some t ∧ lastOcc n (((E.fields i).map Prod.fst).zip js) = some x := by
    have lk : ∀ {α : Type} (l : List (Bytes × α)), (l.map Prod.fst).Nodup → ∀ a ∈ l, l.lookup a.1 = some a.2 := by
      intro α l hl a ha
      induction l with
      | nil => cases ha
      | cons b l ih =>
        rw [List.map_cons, List.nodup_cons] at hl
        rw [List.lookup_cons]
        rcases List.mem_cons.1 ha with rfl | ha
        · simp
        · have : a.1 ≠ b.1 := fun e => hl.1 (e ▸ List.mem_map.2 ⟨a, ha, rfl⟩)
          rw [beq_eq_false_iff_ne.2 this]
          exact ih hl.2 ha
    intro j n t x h1 h2
    refine ⟨lk _ hn (n, t) (List.mem_of_getElem? h1), ?_⟩
    unfold lastOcc
    refine lk _ ?_ (n, x) (List.mem_reverse.2 (List.mem_of_getElem? (i := j) ?_))
    · rw [List.map_reverse, (List.reverse_perm _).nodup_iff, List.map_fst_zip (by simp [hjl])]
      exact hn
    · rw [List.getElem?_zip_eq_some]
      exact ⟨by rw [List.getElem?_map, h1]; rfl, h2⟩
  refine ⟨_, vs, objectText_text hj, rfl, ?_, hl, ?_⟩
  · intro m hm
    obtain ⟨j, hj'⟩ := List.mem_iff_getElem?.1 hm
    rw [List.getElem?_zip_eq_some, List.getElem?_map, Option.map_eq_some_iff] at hj'
    obtain ⟨⟨f, hf, hfm⟩, hx⟩ := hj'
    obtain ⟨n, t⟩ := f
    obtain ⟨k, x⟩ := m
    simp only at hfm hx
    subst hfm
    unfold MemberFits
    rw [(hlook j n t x hf hx).1]
    have hjlt : j < vs.length := by rw [hl]; exact (List.getElem?_eq_some_iff.1 hf).1
    exact ⟨_, hd j n t x _ hf hx (List.getElem?_eq_getElem hjlt)⟩
  · intro j n t hf
    have hjf := (List.getElem?_eq_some_iff.1 hf).1
    have hx := List.getElem?_eq_getElem (l := js) (i := j) (by omega)
    have hu := List.getElem?_eq_getElem (l := vs) (i := j) (by omega)
    refine ⟨_, hu, ?_⟩
    unfold FieldHas
    rw [(hlook j n t _ hf hx).2]
    exact hd j n t _ _ hf hx hu

/-- **C51.** The text of a pair is that of an array of the two texts. -/
theorem C51_write_pair (E : Env) (order : Nat → List (Bytes × Val) → List (Bytes × Val)) (ho : ∀ n ms, (order n ms).Perm ms) (hE : E.Utf8)
    (hr : RyuSyntax ryu lit) (hf : ∀ i, ∀ f ∈ E.fields i, f.2.noHash = true) (a b : Ty) (ha : a.noHash = true) (hb : b.noHash = true) (u v : Val)
    (hu : HasTy E a u) (hv : HasTy E b v) (o : Bytes) (hprint : PrintsAs E order ryu (.tup a b) (.seq [u, v]) o) :
    ∃ o₁ o₂, o = arrayText [o₁, o₂] ∧ PrintsAs E order ryu a u o₁ ∧ PrintsAs E order ryu b v o₂ := by
  obtain ⟨x, hx, e, -, -⟩ := prints_encodes E order ho hE hr (.tup hu hv) hprint
  cases hx with
  | array ht _ => rcases ht with e | e <;> cases e
  | tup h1 h2 =>
    rename_i x y
    refine ⟨compact (x.json lit), compact (y.json lit), ?_, prints_of_encodes ho hE hr hf ha hu h1, prints_of_encodes ho hE hr hf hb hv h2⟩
    rw [e]
    show 0x5B :: (compactElems [x.json lit, y.json lit] ++ [0x5D]) = _
    rw [compactElems_joined]
    rfl

/-- **C51.** The text of a `BTreeMap` is `{"key":text,...}` in the order of the keys, with the keys as their `Display` shows them and the values' own texts. -/
theorem C51_write_map (E : Env) (order : Nat → List (Bytes × Val) → List (Bytes × Val)) (ho : ∀ n ms, (order n ms).Perm ms) (hE : E.Utf8)
    (hr : RyuSyntax ryu lit) (hf : ∀ i, ∀ f ∈ E.fields i, f.2.noHash = true) (k : Nat) (t : Ty) (ht : t.noHash = true) (ms : List (Bytes × Val))
    (h : HasTy E (.bmap k t) (.map ms)) (o : Bytes) (hprint : PrintsAs E order ryu (.bmap k t) (.map ms) o) :
    ∃ os, o = objectText ((ms.map fun m => E.keyShow k m.1).zip os) ∧ Each (fun m o => PrintsAs E order ryu t m.2 o) ms os := by
  obtain ⟨x, hx, e, -, -⟩ := prints_encodes E order ho hE hr h hprint
  have hv : ∀ m ∈ ms, HasTy E t m.2 := by
    cases h with
    | bmap _ _ h => exact h
    | object ht _ _ _ => rcases ht with e | e <;> cases e
  cases hx with
  | object ht _ => rcases ht with e | e <;> cases e
  | bmap hs =>
    rename_i xs
    have hjm : ∀ xs : List (Bytes × FTree), FTree.jsonMembers lit xs = xs.map fun m => (m.1, m.2.json lit) := by
      intro xs
      induction xs with
      | nil => rfl
      | cons x xs ih => obtain ⟨k, x⟩ := x; simp [FTree.jsonMembers, ih]
    have key : ∀ {g : Bytes → Bytes} {ms : List (Bytes × Val)} {xs : List (Bytes × FTree)}, EncodesEntries E g t ms xs →
        (∀ m ∈ ms, HasTy E t m.2) →
        xs.map (fun m => (m.1, compact (m.2.json lit))) = (ms.map fun m => g m.1).zip (xs.map fun m => compact (m.2.json lit)) ∧
        Each (fun m o => PrintsAs E order ryu t m.2 o) ms (xs.map fun m => compact (m.2.json lit)) := by
      intro g ms xs hs
      induction ms generalizing xs with
      | nil => cases hs; intro _; exact ⟨rfl, .nil⟩
      | cons m ms ih =>
        cases hs with
        | cons h1 hs =>
          intro g1
          obtain ⟨i1, i2⟩ := ih hs (fun m hm => g1 m (List.mem_cons_of_mem _ hm))
          exact ⟨by simp [i1], .cons (prints_of_encodes ho hE hr hf ht (g1 _ List.mem_cons_self) h1) i2⟩
    obtain ⟨k1, k2⟩ := key hs hv
    refine ⟨_, ?_, k2⟩
    rw [e]
    show 0x7B :: (compactMembers (FTree.jsonMembers lit xs) ++ [0x7D]) = _
    rw [compactMembers_joined, hjm, List.map_map]
    unfold objectText
    rw [← k1]
    simp only [List.map_map]
    rfl

/-- **C51.** Two texts that can be read as `A` and as `B` make an array that is read as `(A, B)`. -/
theorem C51_read_pair (E : Env) (a b : Ty) (s₁ s₂ : Bytes) (u v : Val) (h₁ : parseAs E a s₁ = some (.ok u)) (h₂ : parseAs E b s₂ = some (.ok v)) :
    parseAs E (.tup a b) (arrayText [s₁, s₂]) = some (.ok (.seq [u, v])) := by
  obtain ⟨x, hx, dx⟩ := (parseAs_ok E).1 h₁
  obtain ⟨y, hy, dy⟩ := (parseAs_ok E).1 h₂
  rw [C25_pair]
  exact ⟨x, y, u, v, arrayText_text (.cons hx (.cons hy .nil)), dx, dy, rfl⟩

theorem lookup_member {α : Type} : ∀ {l : List (Bytes × α)}, (l.map Prod.fst).Nodup → ∀ {a : Bytes × α}, a ∈ l → l.lookup a.1 = some a.2
  | [], _, _, ha => by cases ha
  | b :: l, hl, a, ha => by
    rw [List.map_cons, List.nodup_cons] at hl
    rw [List.lookup_cons]
    rcases List.mem_cons.1 ha with rfl | ha
    · simp
    · have : a.1 ≠ b.1 := fun e => hl.1 (e ▸ List.mem_map.2 ⟨a, ha, rfl⟩)
      rw [beq_eq_false_iff_ne.2 this]
      exact lookup_member hl.2 ha

theorem each_getElem {α β : Type} {R : α → β → Prop} {as : List α} {bs : List β} (h : Each R as bs) : ∀ {j : Nat} {a : α} {b : β}, as[j]? = some a → bs[j]? = some b → R a b := by
  induction h with
  | nil => intro j a b h; simp at h
  | cons h _ ih =>
    intro j a b h1 h2
    cases j with
    | zero => simp at h1 h2; exact h1 ▸ h2 ▸ h
    | succ j => exact ih (by simpa using h1) (by simpa using h2)

/-- **C51, conversely.** An array of two texts is read as a pair only if the texts are read as its components; no other array is. -/
theorem C51_read_pair_iff (E : Env) (a b : Ty) (ss : List Bytes) (hs : ∀ s ∈ ss, ∃ j, JText s j) (w : Val) :
    parseAs E (.tup a b) (arrayText ss) = some (.ok w) ↔
      ∃ s₁ s₂ u v, ss = [s₁, s₂] ∧ w = .seq [u, v] ∧ parseAs E a s₁ = some (.ok u) ∧ parseAs E b s₂ = some (.ok v) := by
  constructor
  · intro h
    obtain ⟨js, hj⟩ := each_text hs
    obtain ⟨x, y, u, v, h1, h2, h3, rfl⟩ := (C25_pair E a b _ _).1 h
    cases JText.unique h1 (arrayText_text hj)
    match ss, hj with
    | [s₁, s₂], .cons hx (.cons hy .nil) =>
      exact ⟨s₁, s₂, u, v, rfl, rfl, (parseAs_ok E).2 ⟨x, hx, h2⟩, (parseAs_ok E).2 ⟨y, hy, h3⟩⟩
  · rintro ⟨s₁, s₂, u, v, rfl, rfl, h1, h2⟩
    exact C51_read_pair E a b s₁ s₂ u v h1 h2

/-- **C51, fixed-size arrays.** Reading `[s₁,s₂,...]` as `[T; N]` is reading each part as a `T`; there must be `N` parts. -/
theorem C51_read_array (E : Env) (t : Ty) (n : Nat) (ss : List Bytes) (hs : ∀ s ∈ ss, ∃ j, JText s j) (v : Val) :
    parseAs E (.arr t n) (arrayText ss) = some (.ok v) ↔
      ss.length = n ∧ ∃ vs, v = .seq vs ∧ Each (fun s v => parseAs E t s = some (.ok v)) ss vs := by
  obtain ⟨js, hj⟩ := each_text hs
  rw [C25_array]
  constructor
  · rintro ⟨xs, vs, h1, h0, h2, rfl⟩
    have e := JText.unique h1 (arrayText_text hj)
    cases e
    exact ⟨hj.length.trans h0, vs, rfl, (decoded_each hj).1 h2⟩
  · rintro ⟨h0, vs, rfl, h⟩
    exact ⟨js, vs, arrayText_text hj, hj.length.symm.trans h0, (decoded_each hj).2 h, rfl⟩

/-- **C51, conversely.** An object with the fields of a struct (with distinct names) and JSON texts as parts is read as the struct exactly when each part is read as the type
of its field. -/
theorem C51_read_struct_iff (E : Env) (i : Nat) (hn : ((E.fields i).map Prod.fst).Nodup) (ss : List Bytes) (hs : ∀ s ∈ ss, ∃ j, JText s j)
    (hl : ss.length = (E.fields i).length) (w : Val) :
    parseAs E (.strct i) (objectText (((E.fields i).map Prod.fst).zip ss)) = some (.ok w) ↔
      ∃ vs, w = .strct vs ∧ vs.length = (E.fields i).length ∧
        ∀ (j : Nat) n t s v, (E.fields i)[j]? = some (n, t) → ss[j]? = some s → vs[j]? = some v → parseAs E t s = some (.ok v) := by
  constructor
  · intro h
    obtain ⟨js, hj⟩ := each_text hs
    have hz : ∀ (ns : List Bytes), Each (fun (m : Bytes × Bytes) (j : Bytes × Json) => m.1 = j.1 ∧ JText m.2 j.2) (ns.zip ss) (ns.zip js) := by
      clear h hl
      induction hj with
      | nil => intro ns; cases ns <;> exact .nil
      | cons hx _ ih =>
        intro ns
        cases ns with
        | nil => exact .nil
        | cons n ns => exact .cons ⟨rfl, hx⟩ (ih (fun s hm => hs s (List.mem_cons_of_mem _ hm)) ns)
    obtain ⟨ms, vs, h1, rfl, h2, h3, h4⟩ := (C19_to_C22_struct E i hn _ _).1 h
    cases JText.unique h1 (objectText_text (hz _))
    refine ⟨vs, rfl, h3, fun j n t s v hf hsj hv => ?_⟩
    obtain ⟨u, hu, hh⟩ := h4 j n t hf
    cases hu.symm.trans hv
    have hjl : js.length = (E.fields i).length := hj.length.symm.trans hl
    have hjlt : j < js.length := by rw [hjl]; exact (List.getElem?_eq_some_iff.1 hf).1
    have hx := List.getElem?_eq_getElem hjlt
    have hlast : lastOcc n (((E.fields i).map Prod.fst).zip js) = some js[j] := by
      unfold lastOcc
      refine lookup_member (a := (n, js[j])) ?_ (List.mem_reverse.2 (List.mem_of_getElem? (i := j) ?_))
      · rw [List.map_reverse, (List.reverse_perm _).nodup_iff, List.map_fst_zip (by simp [hjl])]
        exact hn
      · rw [List.getElem?_zip_eq_some]
        exact ⟨by rw [List.getElem?_map, hf]; rfl, hx⟩
    unfold FieldHas at hh
    rw [hlast] at hh
    exact (parseAs_ok E).2 ⟨_, each_getElem hj hsj hx, hh⟩
  · rintro ⟨vs, rfl, h1, h2⟩
    exact C51_read_struct E i hn ss vs h1 hl h2

/-! ## Instances -/

theorem exEnv_noHash : ∀ i, ∀ f ∈ exEnv.fields i, f.2.noHash = true := by
  intro i f hf
  match i with
  | 0 =>
    simp only [exEnv, List.mem_cons, List.not_mem_nil, or_false] at hf
    rcases hf with rfl | rfl | rfl <;> rfl
  | _ + 1 => cases hf

/-- The point and its neighbour have different texts. -/
example (o : Bytes) (h : PrintsAs exEnv exOrder (fun x => (exLit x).text) (.strct 0) exPoint o) :
    ¬ PrintsAs exEnv exOrder (fun x => (exLit x).text) (.opt (.strct 0)) (.optNone) o := by
  intro h'
  have h2 : PrintsAs exEnv exOrder (fun x => (exLit x).text) (.opt (.strct 0)) (.optSome exPoint) o := ((C50_wrappers exEnv exOrder o).2.1 _ _).2 h
  have := C50_injective exEnv exOrder (fun _ _ => .refl _) exEnv_utf8 exRyu exEnv_noHash (.opt (.strct 0)) rfl _ _ (.some exPoint_ty)
    (plain_of_type exEnv_plain (.some exPoint_ty) rfl) (.none _) (plain_of_type exEnv_plain (.none _) rfl) o h2 h'
  cases this

/-- A `Vec` of two points. -/
example (o : Bytes) (h : PrintsAs exEnv exOrder (fun x => (exLit x).text) (.vec (.strct 0)) (.seq [exPoint, exPoint]) o) :
    ∃ s, PrintsAs exEnv exOrder (fun x => (exLit x).text) (.strct 0) exPoint s ∧ ∃ s', o = 0x5B :: (s ++ 0x2C :: s' ++ [0x5D]) := by
  obtain ⟨os, rfl, he⟩ := C51_write_vec exEnv exOrder (fun _ _ => .refl _) exEnv_utf8 exRyu exEnv_noHash (.strct 0) rfl _
    (.vec (by intro v hv; simp at hv; subst hv; exact exPoint_ty)) o h
  match os, he with
  | [s, s'], .cons h1 (.cons h2 .nil) => exact ⟨s, h1, s', rfl⟩

example (o : Bytes) (h : PrintsAs exEnv exOrder (fun x => (exLit x).text) (.strct 0) exPoint o) :
    ∃ x tag next, o = objectText [(str! "x", x), (str! "tag", tag), (str! "next", next)] ∧
      PrintsAs exEnv exOrder (fun x => (exLit x).text) (.int true 32) (.int (-7)) x := by
  obtain ⟨os, rfl, he⟩ := C51_write_struct exEnv exOrder (fun _ _ => .refl _) exEnv_utf8 exRyu exEnv_noHash 0 _ exPoint_ty o h
  match os, he with
  | [x, tag, next], .cons h1 (.cons h2 (.cons h3 .nil)) => exact ⟨x, tag, next, rfl, h1⟩

/-- `[ 1 ,1]`: the parts may contain white space. -/
example : parseAs exEnv (.vec (.int true 32)) (arrayText [str! " 1 ", str! "1"]) = some (.ok (.seq [.int 1, .int 1])) := by
  have h1 : parseAs exEnv (.int true 32) (str! "1") = some (.ok (.int 1)) := (parseAs_ok exEnv).2 ⟨_, num_text litOne litOne_wf, decode_one⟩
  have h2 : parseAs exEnv (.int true 32) (str! " 1 ") = some (.ok (.int 1)) :=
    (parseAs_ok exEnv).2 ⟨_, ⟨str! " ", str! "1", str! " ", rfl, (by intro c hc; simp at hc; subst hc; decide), .num litOne litOne_wf,
      (by intro c hc; simp at hc; subst hc; decide)⟩, decode_one⟩
  exact C51_read_elements exEnv _ _ _ (.cons h2 (.cons h1 .nil))

/-- `{"a":1,"b":1,"a":1}` as a map. -/
example : ∃ m, parseAs exEnv (.bmap 0 (.int true 32)) (objectText [(str! "a", str! "1"), (str! "b", str! "1"), (str! "a", str! "1")]) = some (.ok (.map m)) ∧
    m.lookup (str! "a") = some (.int 1) := by
  have h1 : parseAs exEnv (.int true 32) (str! "1") = some (.ok (.int 1)) := (parseAs_ok exEnv).2 ⟨_, num_text litOne litOne_wf, decode_one⟩
  obtain ⟨m, h2, -, h3⟩ := (C51_read_map exEnv 0 (.int true 32) [(str! "a", str! "1"), (str! "b", str! "1"), (str! "a", str! "1")] [(str! "a", .int 1), (str! "b", .int 1), (str! "a", .int 1)]
    (.cons ⟨rfl, h1⟩ (.cons ⟨rfl, h1⟩ (.cons ⟨rfl, h1⟩ .nil)))).1 strLt_linear
  exact ⟨m, h2, (h3 _).trans (rfl)⟩

example :
    parseAs exEnv (.strct 0) (str! "{\"x\":1,\"tag\":null,\"next\":null}") = some (.ok (.strct [.int 1, .optNone, .optNone])) := by
  have h1 : parseAs exEnv (.int true 32) (str! "1") = some (.ok (.int 1)) := (parseAs_ok exEnv).2 ⟨_, num_text litOne litOne_wf, decode_one⟩
  have hn : ∀ t, parseAs exEnv (.opt t) (str! "null") = some (.ok .optNone) := fun t =>
    (parseAs_ok exEnv).2 ⟨.null, ⟨[], str! "null", [], rfl, De.ws_nil, .null, De.ws_nil⟩, by unfold decode; rfl⟩
  refine (show (str! "{\"x\":1,\"tag\":null,\"next\":null}") = objectText (((exEnv.fields 0).map Prod.fst).zip [str! "1", str! "null", str! "null"]) by
    decide +kernel) ▸ C51_read_struct exEnv 0 exEnv_fields_nodup _ _ rfl rfl ?_
  intro j n t s v hj hs hv
  match j with
  | 0 => cases hj; cases hs; cases hv; exact h1
  | 1 => cases hj; cases hs; cases hv; exact hn _
  | 2 => cases hj; cases hs; cases hv; exact hn _
  | _ + 3 => simp at hs

end Miniserde
