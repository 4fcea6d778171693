import Verif.Proof.Maps
import Verif.Proof.FromStr

/-!
# Consequences of the decoding specification
-/

namespace Miniserde
variable (E : Env)

/-! ## Structs -/

theorem fieldIdx_some {fields : List (Bytes × Ty)} (hn : (fields.map Prod.fst).Nodup) {k : Bytes} {i : Nat} {n : Bytes} {t : Ty}
    (hi : fields[i]? = some (n, t)) : fieldIdx fields k = some i ↔ k = n := by
  have hlt : i < fields.length := (List.getElem?_eq_some_iff.1 hi).1
  have hget : fields[i] = (n, t) := (List.getElem?_eq_some_iff.1 hi).2
  unfold fieldIdx
  rw [List.findIdx?_eq_some_iff_getElem]
  constructor
  · rintro ⟨h, h1, -⟩
    have h2 := eq_of_beq h1
    rw [← h2, hget]
  · rintro rfl
    refine ⟨hlt, by simp [hget], fun j hj => ?_⟩
    have := (List.nodup_iff_pairwise_ne.1 hn)
    rw [List.pairwise_iff_getElem] at this
    have := this j i (by simp; omega) (by simp; omega) hj
    simp only [List.getElem_map, hget] at this
    simpa using this

theorem fieldIdx_none {fields : List (Bytes × Ty)} {k : Bytes} : fieldIdx fields k = none ↔ fields.lookup k = none := by
  unfold fieldIdx
  rw [List.findIdx?_eq_none_iff, List.lookup_eq_none_iff]
  simp only [beq_eq_false_iff_ne, bne_iff_ne, ne_eq]
  exact ⟨fun h x hx e => h x hx e.symm, fun h x hx e => h x hx e.symm⟩

theorem lookup_of_idx {fields : List (Bytes × Ty)} {k : Bytes} {i : Nat} (h : fieldIdx fields k = some i) :
    ∃ t, fields[i]? = some (k, t) ∧ fields.lookup k = some t := by
  induction fields generalizing i with
  | nil => simp [fieldIdx] at h
  | cons f fields ih =>
    obtain ⟨n, t⟩ := f
    by_cases e : n = k
    · subst e
      simp [fieldIdx, List.findIdx?_cons] at h
      subst h
      exact ⟨t, by simp, by simp⟩
    · unfold fieldIdx at h
      rw [List.findIdx?_cons] at h
      have : ((n, t).1 == k) = false := by simpa using e
      rw [this] at h
      simp only [Bool.false_eq_true, if_false, Option.map_eq_some_iff] at h
      obtain ⟨j, hj, rfl⟩ := h
      obtain ⟨t', h1, h2⟩ := ih hj
      exact ⟨t', by simpa using h1, by rw [lookup_cons', if_neg (Ne.symm e)]; exact h2⟩

theorem lastOcc_cons {α : Type} (k a : Bytes) (u : α) (ms : List (Bytes × α)) :
    lastOcc k ((a, u) :: ms) = (lastOcc k ms).or (if k = a then some u else none) := by
  simp [lastOcc, lookup_append, lookup_cons']

theorem lookupN_append {α : Type} (k : Nat) : ∀ (m m' : List (Nat × α)),
    (m ++ m').lookup k = (m.lookup k).or (m'.lookup k)
  | [], m' => by simp
  | (a, u) :: m, m' => by
    simp only [List.cons_append, List.lookup]
    cases k == a <;> simp [lookupN_append k m m']

/-- The members of an object decoded at a struct. -/
theorem decodeFields_spec {fields : List (Bytes × Ty)} (hn : (fields.map Prod.fst).Nodup) : ∀ (ms : List (Bytes × Json)),
    ((∃ ivs, decodeFields E fields ms = some ivs) ↔ ∀ m ∈ ms, MemberFits E fields m) ∧
    ∀ ivs, decodeFields E fields ms = some ivs → ∀ i n t, fields[i]? = some (n, t) →
      ivs.reverse.lookup i = (lastOcc n ms).bind fun x => decode E x t
  | [] => by
    refine ⟨by simp [decodeFields], ?_⟩
    intro ivs h
    simp [decodeFields] at h
    subst h
    intro i n t _
    simp [lastOcc]
  | (k, x) :: ms => by
    obtain ⟨ih1, ih2⟩ := decodeFields_spec hn ms
    rw [decodeFields]
    cases hk : fieldIdx fields k with
    | none =>
      have hl := fieldIdx_none.1 hk
      simp only
      by_cases hr : representable x = true
      · rw [if_pos hr]
        refine ⟨?_, ?_⟩
        · rw [ih1]; simp [MemberFits, hl, hr]
        · intro ivs h i n t hi
          rw [ih2 ivs h i n t hi, lastOcc_cons]
          have : n ≠ k := by
            rintro rfl
            have := (fieldIdx_some hn (k := n) hi).2 rfl
            rw [hk] at this; cases this
          simp [this]
      · rw [if_neg hr]
        refine ⟨?_, by simp⟩
        simp [MemberFits, hl, hr]
    | some j =>
      obtain ⟨t', h1, h2⟩ := lookup_of_idx hk
      simp only [h1]
      refine ⟨?_, ?_⟩
      · constructor
        · rintro ⟨ivs, h⟩
          simp only [Option.bind_eq_some_iff, Option.map_eq_some_iff] at h
          obtain ⟨v, hv, ivs', hivs, rfl⟩ := h
          intro m hm
          rcases List.mem_cons.1 hm with rfl | hm
          · simp only [MemberFits, h2]; exact ⟨v, hv⟩
          · exact ih1.1 ⟨_, hivs⟩ m hm
        · intro h
          have h3 := h _ (List.mem_cons_self ..)
          simp only [MemberFits, h2] at h3
          obtain ⟨v, hv⟩ := h3
          obtain ⟨ivs, hivs⟩ := ih1.2 fun m hm => h m (List.mem_cons_of_mem _ hm)
          exact ⟨(j, v) :: ivs, by simp [hv, hivs]⟩
      · intro ivs h i n t hi
        simp only [Option.bind_eq_some_iff, Option.map_eq_some_iff] at h
        obtain ⟨v, hv, ivs', hivs, rfl⟩ := h
        rw [List.reverse_cons, lookupN_append, ih2 ivs' hivs i n t hi, lastOcc_cons]
        by_cases e : n = k
        · subst e
          have hij := (fieldIdx_some hn (k := n) hi).2 rfl
          rw [hk] at hij; simp only [Option.some.injEq] at hij; subst hij
          rw [hi] at h1; simp only [Option.some.injEq, Prod.mk.injEq, true_and] at h1; subst h1
          cases ho : lastOcc n ms with
          | none => simp [hv, List.lookup]
          | some y =>
            have hy : (n, y) ∈ ms := by
              have := ho
              unfold lastOcc at this
              have : (n, y) ∈ ms.reverse := by
                generalize ms.reverse = l at this
                induction l with
                | nil => simp at this
                | cons z l ih =>
                  rw [show z = (z.1, z.2) from rfl, lookup_cons'] at this
                  split at this
                  · rename_i e; cases this; simp [e]
                  · exact List.mem_cons_of_mem _ (ih this)
              simpa using this
            have := ih1.1 ⟨_, hivs⟩ _ hy
            simp only [MemberFits, h2] at this
            obtain ⟨u, hu⟩ := this
            simp [hu]
        · have hij : i ≠ j := by
            rintro rfl
            exact e ((fieldIdx_some hn (k := k) hi).1 hk).symm
          have : (i == j) = false := by simpa using hij
          simp [e, List.lookup, this]

theorem fieldValues_spec (ivs : List (Nat × Val)) : ∀ (fs : List (Bytes × Ty)) (i0 : Nat) (vs : List Val),
    fieldValues ivs i0 fs = some vs ↔ vs.length = fs.length ∧
      ∀ i n t, fs[i]? = some (n, t) → ∃ u, vs[i]? = some u ∧ fieldValue ivs (i0 + i) t = some u
  | [], i0, vs => by
    simp [fieldValues, eq_comm]
  | (n, t) :: fs, i0, vs => by
    simp only [fieldValues, Option.bind_eq_some_iff, Option.map_eq_some_iff, fieldValues_spec ivs fs (i0 + 1)]
    constructor
    · rintro ⟨v, hv, us, ⟨h1, h2⟩, rfl⟩
      refine ⟨by simp [h1], ?_⟩
      intro i m u hi
      cases i with
      | zero => simp at hi; obtain ⟨rfl, rfl⟩ := hi; exact ⟨v, by simp, by simpa using hv⟩
      | succ i =>
        simp at hi
        obtain ⟨w, h3, h4⟩ := h2 i m u hi
        exact ⟨w, by simpa using h3, by rw [show i0 + (i + 1) = i0 + 1 + i by omega]; exact h4⟩
    · rintro ⟨h1, h2⟩
      cases vs with
      | nil => simp at h1
      | cons v vs =>
        obtain ⟨u, h3, h4⟩ := h2 0 n t (by simp)
        simp at h3; subst h3
        refine ⟨v, by simpa using h4, vs, ⟨by simpa using h1, ?_⟩, rfl⟩
        intro i m u hi
        obtain ⟨w, h5, h6⟩ := h2 (i + 1) m u (by simpa using hi)
        exact ⟨w, by simpa using h5, by rw [show i0 + 1 + i = i0 + (i + 1) by omega]; exact h6⟩

/-- Decoding an object at a derived struct with distinct field names. -/
theorem decode_strct {i : Nat} (hn : ((E.fields i).map Prod.fst).Nodup) (ms : List (Bytes × Json)) (v : Val) :
    decode E (.obj ms) (.strct i) = some v ↔ ∃ vs, v = .strct vs ∧ (∀ m ∈ ms, MemberFits E (E.fields i) m) ∧
      vs.length = (E.fields i).length ∧
      ∀ (j : Nat) n t, (E.fields i)[j]? = some (n, t) → ∃ u, vs[j]? = some u ∧ FieldHas E ms n t u := by
  unfold decode
  simp only [Option.bind_eq_some_iff, Option.map_eq_some_iff]
  obtain ⟨h1, h2⟩ := decodeFields_spec E hn ms
  have key : ∀ ivs, decodeFields E (E.fields i) ms = some ivs → ∀ j n t u, (E.fields i)[j]? = some (n, t) →
      (fieldValue ivs (0 + j) t = some u ↔ FieldHas E ms n t u) := by
    intro ivs hi j n t u hj
    unfold fieldValue FieldHas
    rw [Nat.zero_add, h2 ivs hi j n t hj]
    cases ho : lastOcc n ms with
    | none =>
      simp only [Option.bind_none]
      cases t <;> simp [eq_comm]
    | some x =>
      simp only [Option.bind_some]
      cases hd : decode E x t with
      | some w => simp
      | none =>
        exfalso
        have hx : (n, x) ∈ ms := by
          unfold lastOcc at ho
          have : (n, x) ∈ ms.reverse := by
            generalize ms.reverse = l at ho
            induction l with
            | nil => simp at ho
            | cons z l ih =>
              rw [show z = (z.1, z.2) from rfl, lookup_cons'] at ho
              split at ho
              · rename_i e; cases ho; simp [e]
              · exact List.mem_cons_of_mem _ (ih ho)
          simpa using this
        have := h1.1 ⟨_, hi⟩ _ hx
        obtain ⟨t', h3, h4⟩ := lookup_of_idx ((fieldIdx_some hn (k := n) hj).2 rfl)
        rw [hj] at h3; simp only [Option.some.injEq, Prod.mk.injEq, true_and] at h3; subst h3
        simp only [MemberFits, h4, hd] at this
        obtain ⟨_, h⟩ := this
        cases h
  constructor
  · rintro ⟨ivs, hi, vs, hv, rfl⟩
    rw [fieldValues_spec] at hv
    refine ⟨vs, rfl, h1.1 ⟨_, hi⟩, hv.1, ?_⟩
    intro j n t hj
    obtain ⟨u, h3, h4⟩ := hv.2 j n t hj
    exact ⟨u, h3, (key ivs hi j n t u hj).1 h4⟩
  · rintro ⟨vs, rfl, hm, hl, hf⟩
    obtain ⟨ivs, hi⟩ := h1.2 hm
    refine ⟨ivs, hi, vs, ?_, rfl⟩
    rw [fieldValues_spec]
    refine ⟨hl, fun j n t hj => ?_⟩
    obtain ⟨u, h3, h4⟩ := hf j n t hj
    exact ⟨u, h3, (key ivs hi j n t u hj).2 h4⟩

/-! ## Sequences and maps -/

theorem decodeAll_spec (t : Ty) : ∀ (xs : List Json) (vs : List Val), decodeAll E xs t = some vs ↔ DecodedElems E t xs vs
  | [], vs => by
    simp only [decodeAll, Option.some.injEq]
    exact ⟨fun h => h ▸ .nil, fun h => by cases h; rfl⟩
  | x :: xs, vs => by
    simp only [decodeAll, Option.bind_eq_some_iff, Option.map_eq_some_iff, decodeAll_spec t xs]
    constructor
    · rintro ⟨v, hv, us, h, rfl⟩; exact .cons hv h
    · intro h; cases h with | cons hv h => exact ⟨_, hv, _, h, rfl⟩

theorem decodeEntries_spec (parse : Bytes → Option Bytes) (t : Ty) : ∀ (ms : List (Bytes × Json)) (kvs : List (Bytes × Val)),
    decodeEntries E parse t ms = some kvs ↔ DecodedEntries E parse t ms kvs
  | [], vs => by
    simp only [decodeEntries, Option.some.injEq]
    exact ⟨fun h => h ▸ .nil, fun h => by cases h; rfl⟩
  | (k, x) :: xs, vs => by
    simp only [decodeEntries, Option.bind_eq_some_iff, Option.map_eq_some_iff, decodeEntries_spec parse t xs]
    constructor
    · rintro ⟨k', hk, v, hv, us, h, rfl⟩; exact .cons hk hv h
    · intro h; cases h with | cons hk hv h => exact ⟨_, hk, _, hv, _, h, rfl⟩

/-! ## `Value` -/

theorem decodeNum_value (ev : Event) (v : Val) : decodeNum ev .value = some v ↔ IsNumber ev v := by
  constructor
  · intro h
    cases ev <;> simp only [decodeNum, reduceCtorEq, Option.some.injEq] at h <;> subst h <;> constructor
  · intro h; cases h <;> rfl

mutual

theorem decode_value : ∀ (j : Json) (v : Val), decode E j .value = some v ↔ IsValue j v
  | .null, v => by
    unfold decode
    simp only [decodeScalar, Option.some.injEq]
    exact ⟨fun h => h ▸ .null, fun h => by cases h; rfl⟩
  | .bool b, v => by
    unfold decode
    simp only [decodeScalar, Option.some.injEq]
    exact ⟨fun h => h ▸ .bool b, fun h => by cases h; rfl⟩
  | .str s, v => by
    unfold decode
    simp only [decodeScalar, Option.some.injEq]
    exact ⟨fun h => h ▸ .str s, fun h => by cases h; rfl⟩
  | .num l, v => by
    unfold decode
    simp only [decodeScalar]
    constructor
    · intro h
      split at h
      · rename_i ev he; exact .num he ((decodeNum_value ev v).1 h)
      · cases h
    · intro h
      cases h with
      | num he hv => rw [he]; exact (decodeNum_value _ v).2 hv
  | .arr xs, v => by
    unfold decode
    simp only [Option.map_eq_some_iff, decodeAll_value xs]
    constructor
    · rintro ⟨vs, h, rfl⟩; exact .arr h
    · intro h; cases h with | arr h => exact ⟨_, h, rfl⟩
  | .obj ms, v => by
    unfold decode
    simp only [Option.map_eq_some_iff, decodeEntries_value ms]
    have hf := fun kvs => foldl_btree strLt_linear (α := Val) kvs [] List.Pairwise.nil
    constructor
    · rintro ⟨kvs, h, rfl⟩
      exact .obj h (hf kvs).1 fun k => by rw [(hf kvs).2 k]; simp [lastOcc]
    · intro h
      cases h with
      | obj h hs hm =>
        refine ⟨_, h, ?_⟩
        congr 1
        refine SortedKeys.ext strLt_linear (hf _).1 hs fun k => ?_
        rw [(hf _).2 k, hm k]; simp [lastOcc]

theorem decodeAll_value : ∀ (xs : List Json) (vs : List Val), decodeAll E xs .value = some vs ↔ AreValues xs vs
  | [], vs => by
    simp only [decodeAll, Option.some.injEq]
    exact ⟨fun h => h ▸ .nil, fun h => by cases h; rfl⟩
  | x :: xs, vs => by
    simp only [decodeAll, Option.bind_eq_some_iff, Option.map_eq_some_iff, decodeAll_value xs, decode_value x]
    constructor
    · rintro ⟨v, hv, us, h, rfl⟩; exact .cons hv h
    · intro h; cases h with | cons hv h => exact ⟨_, hv, _, h, rfl⟩

theorem decodeEntries_value : ∀ (ms : List (Bytes × Json)) (kvs : List (Bytes × Val)),
    decodeEntries E some .value ms = some kvs ↔ AreMembers ms kvs
  | [], vs => by
    simp only [decodeEntries, Option.some.injEq]
    exact ⟨fun h => h ▸ .nil, fun h => by cases h; rfl⟩
  | (k, x) :: xs, vs => by
    simp only [decodeEntries, Option.bind_some, Option.bind_eq_some_iff, Option.map_eq_some_iff, decodeEntries_value xs,
      decode_value x]
    constructor
    · rintro ⟨v, hv, us, h, rfl⟩; exact .cons hv h
    · intro h; cases h with | cons hv h => exact ⟨_, hv, _, h, rfl⟩

end

mutual

/-- A tree has a `Value` exactly when its numbers are representable. -/
theorem value_exists : ∀ (j : Json), (∃ v, IsValue j v) ↔ representable j = true
  | .null => by simp [representable]; exact ⟨_, .null⟩
  | .bool b => by simp [representable]; exact ⟨_, .bool b⟩
  | .str s => by simp [representable]; exact ⟨_, .str s⟩
  | .num l => by
    rw [representable]
    constructor
    · rintro ⟨v, h⟩; cases h with | num he _ => rw [he]; rfl
    · intro h
      rcases numEvent_cases l with h' | h' | ⟨n, h'⟩ | ⟨n, h'⟩ | ⟨n, h'⟩
      · rw [h'] at h; cases h
      · rw [h'] at h; cases h
      · exact ⟨_, .num h' (.neg n)⟩
      · exact ⟨_, .num h' (.pos n)⟩
      · exact ⟨_, .num h' (.float n)⟩
  | .arr xs => by
    rw [representable, ← values_exist xs]
    constructor
    · rintro ⟨v, h⟩; cases h with | arr h => exact ⟨_, h⟩
    · rintro ⟨vs, h⟩; exact ⟨_, .arr h⟩
  | .obj ms => by
    rw [representable, ← members_exist ms]
    constructor
    · rintro ⟨v, h⟩; cases h with | obj h _ _ => exact ⟨_, h⟩
    · rintro ⟨kvs, h⟩
      have hf := foldl_btree strLt_linear (α := Val) kvs [] List.Pairwise.nil
      exact ⟨_, .obj h hf.1 fun k => by rw [hf.2 k]; simp [lastOcc]⟩

theorem values_exist : ∀ (xs : List Json), (∃ vs, AreValues xs vs) ↔ representables xs = true
  | [] => by simp [representables]; exact ⟨_, .nil⟩
  | x :: xs => by
    rw [representables, Bool.and_eq_true, ← value_exists x, ← values_exist xs]
    constructor
    · rintro ⟨v, h⟩; cases h with | cons h1 h2 => exact ⟨⟨_, h1⟩, ⟨_, h2⟩⟩
    · rintro ⟨⟨_, h1⟩, ⟨_, h2⟩⟩; exact ⟨_, .cons h1 h2⟩

theorem members_exist : ∀ (ms : List (Bytes × Json)), (∃ kvs, AreMembers ms kvs) ↔ representableMembers ms = true
  | [] => by simp [representableMembers]; exact ⟨_, .nil⟩
  | (k, x) :: xs => by
    rw [representableMembers, Bool.and_eq_true, ← value_exists x, ← members_exist xs]
    constructor
    · rintro ⟨v, h⟩; cases h with | cons h1 h2 => exact ⟨⟨_, h1⟩, ⟨_, h2⟩⟩
    · rintro ⟨⟨_, h1⟩, ⟨_, h2⟩⟩; exact ⟨_, .cons h1 h2⟩

end

/-! ## `parseAs` -/

theorem parseAs_text {s : Bytes} {j : Json} (hj : JText s j) (hs : s.length < 2147483648) (t : Ty) :
    parseAs E t s = some (match decode E j t with | some v => .ok v | none => .err) := by
  obtain ⟨h, -, e⟩ := fromStr_text E hj hs t
  rw [parseAs, e]; rfl

theorem parseAs_not_text {s : Bytes} (hj : ¬ ∃ j, JText s j) (hs : s.length < 2147483648) (t : Ty) :
    parseAs E t s = some .err := by
  obtain ⟨h, -, e⟩ := fromStr_not_text E hj hs t
  rw [parseAs, e]; rfl

/-- Success, without a bound on the input. -/
theorem parseAs_ok {s : Bytes} {t : Ty} {v : Val} :
    parseAs E t s = some (.ok v) ↔ ∃ j, JText s j ∧ decode E j t = some v := by
  constructor
  · intro h
    have hj : ∃ j, JText s j := by
      rw [parseAs, Option.map_eq_some_iff] at h
      obtain ⟨⟨r, h2⟩, h3, h4⟩ := h
      simp only at h4; subst h4
      rw [fromStr] at h3
      obtain ⟨⟨r', h'⟩, e, e2⟩ := Option.map_eq_some_iff.1 h3
      cases r' with
      | ok u => exact fromStrImpl_ok (P := lib E) (Nat.lt_succ_self _) e
      | err => simp at e2
      | panic => simp at e2
    obtain ⟨j, hj⟩ := hj
    refine ⟨j, hj, ?_⟩
    obtain ⟨h2, -, e⟩ := fromStr_run E hj t
    rw [parseAs, e] at h
    simp only [Option.map_some, Option.some.injEq] at h
    exact (run_decode E _ _ _).1 h
  · rintro ⟨j, hj, hd⟩
    obtain ⟨h2, -, e⟩ := fromStr_run E hj t
    rw [parseAs, e, (run_decode E _ _ _).2 hd]
    rfl

/-! ## Integers -/

/-- A literal with a fraction or an exponent is never delivered as an integer. -/
theorem numEvent_nonint {l : NumLit} (h : ¬ (l.frac = none ∧ l.exp = none)) :
    numEvent l = .err ∨ numEvent l = .panic ∨ ∃ x, numEvent l = .ok (.float x) := by
  unfold numEvent
  simp only
  rw [if_neg (fun h' => h h'.2)]
  generalize i32 _ = z
  cases z with
  | ok e => simp only [Res.bind_ok']; cases fracValue (!l.minus) (accum U64_MAX 0 l.int).1 e l.exp l.frac <;> simp
  | err => simp
  | panic => simp

end Miniserde
