import Verif.Proof.Normal
import Verif.Props.Reparse

/-!
# `to_string(&from_str::<Value>(s)?)` is a normaliser
-/

namespace Miniserde

section
variable {ryu : F64 → Bytes} {lit : F64 → NumLit}

/-- `json::to_string(&json::from_str::<Value>(s)?)` returns `o`. -/
def Reformats (E : Env) (order : Nat → List (Bytes × Val) → List (Bytes × Val)) (ryu : F64 → Bytes) (s o : Bytes) : Prop :=
  ∃ v, parseAs E .value s = some (.ok v) ∧ PrintsAs E order ryu .value v o

theorem jtext_nums {s : Bytes} {j : Json} (h : JText s j) : ∀ l ∈ j.nums, l.WF := by
  obtain ⟨w, b, u, -, -, hb, -⟩ := h
  exact fun l hl => (jvalue_nums hb l hl).1

/-- **C76.** Parsing a document as a `Value` and printing it gives the compact text of its normal form, and fails if it has none (a number out of
range). -/
theorem C76_normalizes (E : Env) (hE : E.Lawful) (hu : E.Utf8) (order : Nat → List (Bytes × Val) → List (Bytes × Val))
    (ho : ∀ n ms, (order n ms).Perm ms) (hr : RyuSyntax ryu lit) (s : Bytes) (hs : ValidUtf8 s) (j : Json) (hj : JText s j) (o : Bytes) :
    Reformats E order ryu s o ↔ ∃ j', NormalOf lit j j' ∧ o = compact j' := by
  have key : ∀ v, IsValue j v → ∀ o, PrintsAs E order ryu .value v o ↔ o = compact ((encV v).json lit) := by
    intro v hv o
    have hp := (C03_value E s v).2 ⟨j, hj, hv⟩
    have ht := C41_type_sound E hE .value trivial s hs v hp
    constructor
    · intro h
      obtain ⟨x, hx, e, -⟩ := prints_encodes E order ho hu hr ht h
      rw [e, encodes_encV hx]
    · rintro rfl
      obtain ⟨o', h', hp', -, -, x, hx, -, e, -⟩ := C28_total E order ho hu hr _ _ ht
      rw [encodes_encV hx] at e
      exact e ▸ ⟨h', hp'⟩
  constructor
  · rintro ⟨v, hv, hp⟩
    obtain ⟨j2, hj2, hv2⟩ := (C03_value E s v).1 hv
    cases JText.unique hj hj2
    exact ⟨_, isValue_normalOf hv2 (jtext_nums hj), (key v hv2 o).1 hp⟩
  · rintro ⟨j', hn, rfl⟩
    obtain ⟨v, hv⟩ := (value_exists j).2 (normalOf_representable hn)
    have e := normalOf_unique hn (isValue_normalOf hv (jtext_nums hj))
    subst e
    exact ⟨v, (C03_value E s v).2 ⟨j, hj, hv⟩, (key v hv _).2 rfl⟩

/-- **C76.** There is at most one normal form. -/
theorem C76_unique {j a b : Json} (ha : NormalOf lit j a) (hb : NormalOf lit j b) : a = b := normalOf_unique ha hb

/-- **C76.** A compact text of a document in normal form comes back byte for byte. -/
theorem C76_fixed (E : Env) (hE : E.Lawful) (hu : E.Utf8) (order : Nat → List (Bytes × Val) → List (Bytes × Val))
    (ho : ∀ n ms, (order n ms).Perm ms) (hr : RyuSyntax ryu lit) (j : Json) (hn : j.Normal) (hs : ValidUtf8 (compact j)) (hj : JText (compact j) j)
    (o : Bytes) : Reformats E order ryu (compact j) o ↔ o = compact j := by
  rw [C76_normalizes E hE hu order ho hr _ hs j hj]
  constructor
  · rintro ⟨j', h, rfl⟩
    rw [normalOf_unique h (normal_self hn)]
  · rintro rfl
    exact ⟨j, normal_self hn, rfl⟩

end

mutual

/-- Normalising a document without floats gives a document in normal form. -/
theorem normal_of {lit : F64 → NumLit} : ∀ {j j' : Json}, NormalOf lit j j' → j.Integers → j'.Normal
  | _, _, .null, _ => .null
  | _, _, .bool b, _ => .bool b
  | _, _, .str s, _ => .str s
  | _, _, .num (l := l) h, hi => by
    cases hi with
    | num hf he hr =>
      by_cases hz : l.minus = true ∧ digitsVal l.int = 0
      · rw [← numNormal_unique (.minusZero hf he hz.1 hz.2) h]
        exact .num rfl rfl (by decide)
      · have hr' : if l.minus then 0 < digitsVal l.int ∧ digitsVal l.int ≤ 2 ^ 63 else digitsVal l.int ≤ 2 ^ 64 - 1 := by
          cases hm : l.minus <;> simp only [hm, true_and, if_true, Bool.false_eq_true, if_false] at hr hz ⊢
          · exact hr
          · exact ⟨by omega, hr⟩
        rw [← numNormal_unique (.int hf he hr') h]
        exact .num hf he hr'
  | _, _, .arr h, hi => by cases hi with | arr hi => exact .arr (normals_of h hi)
  | _, _, .obj h hs hm, hi => by
    cases hi with
    | obj hi =>
      refine .obj hs fun x hx => ?_
      have h1 := lookup_isSome_of_mem (hs.nodup strLt_linear) (k := x.1) (v := x.2) hx
      rw [hm, lastOcc] at h1
      exact members_of h hi _ (List.mem_reverse.1 (mem_of_lookup h1))

theorem normals_of {lit : F64 → NumLit} : ∀ {js js' : List Json}, NormalsOf lit js js' → (∀ j ∈ js, j.Integers) → ∀ j ∈ js', j.Normal
  | _, _, .nil, _, _, h => nomatch h
  | _, _, .cons h hs, hi, j, hj => by
    rcases List.mem_cons.1 hj with rfl | hj
    · exact normal_of h (hi _ List.mem_cons_self)
    · exact normals_of hs (fun x hx => hi x (List.mem_cons_of_mem _ hx)) j hj

theorem members_of {lit : F64 → NumLit} : ∀ {js js' : List (Bytes × Json)}, NormalMembers lit js js' → (∀ m ∈ js, m.2.Integers) → ∀ m ∈ js', m.2.Normal
  | _, _, .nil, _, _, h => nomatch h
  | _, _, .cons h hs, hi, j, hj => by
    rcases List.mem_cons.1 hj with rfl | hj
    · exact normal_of h (hi _ List.mem_cons_self)
    · exact members_of hs (fun x hx => hi x (List.mem_cons_of_mem _ hx)) j hj

end

mutual

/-- A document of integers has no `Number::F64`. -/
theorem isValue_floatFree : ∀ {j : Json} {v : Val}, IsValue j v → j.Integers → v.FloatFree
  | _, _, .null, _ => .null
  | _, _, .bool b, _ => .bool b
  | _, _, .str s, _ => .str s
  | _, _, .num (l := l) (ev := ev) h hv, hj => by
    cases hj with
    | num hf he hr =>
      have hn := numEvent_int hf he
      cases hm : l.minus <;> rw [hm] at hr hn
      · simp only [Bool.false_eq_true, if_false] at hr hn
        rw [if_pos (by unfold u64Max; omega)] at hn
        rw [h] at hn
        cases hn
        cases hv
        exact .numU _
      · simp only [if_true] at hr hn
        rw [if_pos (by unfold u64Max; omega), if_pos (by omega), h] at hn
        cases hn
        cases hv
        exact .numI _
  | _, _, .arr hs, hj => by cases hj with | arr hj => exact .seq (areValues_floatFree hs hj)
  | _, _, .obj (kvs := kvs) (m := m) hs hso hm, hj => by
    cases hj with
    | obj hj =>
      refine .map fun x hx => ?_
      have h1 := lookup_isSome_of_mem (hso.nodup strLt_linear) (k := x.1) (v := x.2) hx
      rw [hm, lastOcc] at h1
      have h2 := List.mem_reverse.1 (mem_of_lookup h1)
      exact areMembers_floatFree hs hj _ h2

theorem areValues_floatFree : ∀ {js : List Json} {vs : List Val}, AreValues js vs → (∀ j ∈ js, j.Integers) → ∀ v ∈ vs, v.FloatFree
  | _, _, .nil, _, _, hv => nomatch hv
  | _, _, .cons h hs, hj, v, hv => by
    rcases List.mem_cons.1 hv with rfl | hv
    · exact isValue_floatFree h (hj _ List.mem_cons_self)
    · exact areValues_floatFree hs (fun j h => hj j (List.mem_cons_of_mem _ h)) v hv

theorem areMembers_floatFree : ∀ {ms : List (Bytes × Json)} {kvs : List (Bytes × Val)}, AreMembers ms kvs → (∀ m ∈ ms, m.2.Integers) →
    ∀ x ∈ kvs, x.2.FloatFree
  | _, _, .nil, _, _, hv => nomatch hv
  | _, _, .cons h hs, hj, v, hv => by
    rcases List.mem_cons.1 hv with rfl | hv
    · exact isValue_floatFree h (hj _ List.mem_cons_self)
    · exact areMembers_floatFree hs (fun j h => hj j (List.mem_cons_of_mem _ h)) v hv

end

mutual

theorem integers_representable : ∀ {j : Json}, j.Integers → representable j = true
  | .null, _ => rfl
  | .bool _, _ => rfl
  | .str _, _ => rfl
  | .num l, h => by
    cases h with
    | num hf he hr =>
      rw [representable]
      have hn := numEvent_int hf he
      cases hm : l.minus <;> rw [hm] at hr hn
      · simp only [Bool.false_eq_true, if_false] at hr hn
        rw [if_pos (by unfold u64Max; omega)] at hn
        rw [hn]; rfl
      · simp only [if_true] at hr hn
        rw [if_pos (by unfold u64Max; omega), if_pos (by omega)] at hn
        rw [hn]; rfl
  | .arr xs, h => by cases h with | arr h => rw [representable]; exact integers_representables h
  | .obj ms, h => by cases h with | obj h => rw [representable]; exact integers_members h

theorem integers_representables : ∀ {xs : List Json}, (∀ x ∈ xs, x.Integers) → representables xs = true
  | [], _ => rfl
  | x :: xs, h => by
    rw [representables, integers_representable (h x List.mem_cons_self), integers_representables fun y hy => h y (List.mem_cons_of_mem _ hy)]
    rfl

theorem integers_members : ∀ {ms : List (Bytes × Json)}, (∀ m ∈ ms, m.2.Integers) → representableMembers ms = true
  | [], _ => rfl
  | (k, x) :: ms, h => by
    rw [representableMembers, integers_representable (h (k, x) List.mem_cons_self), integers_members fun y hy => h y (List.mem_cons_of_mem _ hy)]
    rfl

end

/-- Leaving out `-0`. -/
theorem Json.IntsOnly.integers {j : Json} (h : j.IntsOnly) : j.Integers := by
  induction h with
  | null => exact .null
  | bool b => exact .bool b
  | str s => exact .str s
  | num hf he hr =>
    refine .num hf he ?_
    split at hr
    · rename_i h; rw [if_pos h]; exact hr.2
    · rename_i h; rw [if_neg h]; exact hr
  | arr _ ih => exact .arr ih
  | obj _ ih => exact .obj ih

section
variable {ryu : F64 → Bytes} {lit : F64 → NumLit}

/-- **C76.** Reformatting twice is reformatting once, for documents whose numbers are integers in range. -/
theorem C76_idempotent (E : Env) (hE : E.Lawful) (hu : E.Utf8) (order : Nat → List (Bytes × Val) → List (Bytes × Val))
    (ho : ∀ n ms, (order n ms).Perm ms) (hr : RyuSyntax ryu lit) (s : Bytes) (hs : ValidUtf8 s) (j : Json) (hj : JText s j) (hi : j.Integers) :
    ∃ o j', JText o j' ∧ j'.Normal ∧ o = compact j' ∧ ∀ p, (Reformats E order ryu s p ↔ p = o) ∧ (Reformats E order ryu o p ↔ p = o) := by
  obtain ⟨v, hv⟩ := (value_exists j).2 (integers_representable hi)
  have hp := (C03_value E s v).2 ⟨j, hj, hv⟩
  have ht := C41_type_sound E hE .value trivial s hs v hp
  obtain ⟨o, h', hpr, -, -, x, hx, hjo, e, hvo⟩ := C28_total E order ho hu hr _ _ ht
  have hnf := isValue_normalOf (lit := lit) hv (jtext_nums hj)
  rw [encodes_encV hx] at hjo e
  have hN := normal_of hnf hi
  subst e
  refine ⟨_, _, hjo, hN, rfl, fun p => ⟨?_, C76_fixed E hE hu order ho hr _ hN hvo hjo p⟩⟩
  rw [C76_normalizes E hE hu order ho hr s hs j hj]
  constructor
  · rintro ⟨j2, h2, rfl⟩
    rw [normalOf_unique h2 hnf]
  · rintro rfl
    exact ⟨_, hnf, rfl⟩

/-- **C76.** Two documents of integers have the same reformatted text exactly if they have the same normal form, and exactly if they parse to `Value`s
that are equal up to the representation of integers (`-0` is `Number::I64(0)`, `0` is `Number::U64(0)`). -/
theorem C76_equal (E : Env) (hE : E.Lawful) (hu : E.Utf8) (order : Nat → List (Bytes × Val) → List (Bytes × Val))
    (ho : ∀ n ms, (order n ms).Perm ms) (hr : RyuSyntax ryu lit) (s s' : Bytes) (hs : ValidUtf8 s) (hs' : ValidUtf8 s') (j j' : Json) (hj : JText s j)
    (hj' : JText s' j') (hi : j.Integers) (hi' : j'.Integers) :
    ((∃ o, Reformats E order ryu s o ∧ Reformats E order ryu s' o) ↔ ∃ n, NormalOf lit j n ∧ NormalOf lit j' n) ∧
    ((∃ o, Reformats E order ryu s o ∧ Reformats E order ryu s' o) ↔
      ∃ v v', parseAs E .value s = some (.ok v) ∧ parseAs E .value s' = some (.ok v') ∧ v.canon = v'.canon) := by
  have facts : ∀ (s : Bytes) (j : Json) (o : Bytes), ValidUtf8 s → JText s j → j.Integers → Reformats E order ryu s o →
      ∃ v, parseAs E .value s = some (.ok v) ∧ parseAs E .value o = some (.ok v.canon) ∧ PrintsAs E order ryu .value v.canon o ∧
        HasTy E .value v.canon := by
    intro s j o hs hj hi ⟨v, h1, h2⟩
    obtain ⟨j2, hj2, hv2⟩ := (C03_value E s v).1 h1
    cases JText.unique hj hj2
    obtain ⟨a, b, c, -⟩ := C34_value E order ho hu hr v (C41_type_sound E hE .value trivial s hs v h1) (isValue_floatFree hv2 hi) o h2
    exact ⟨v, h1, a, b, c⟩
  obtain ⟨o1, n1, hn1, -, e1, h1⟩ := C76_idempotent E hE hu order ho hr s hs j hj hi
  obtain ⟨o2, n2, hn2, -, e2, h2⟩ := C76_idempotent E hE hu order ho hr s' hs' j' hj' hi'
  have r1 := (h1 o1).1.2 rfl
  have r2 := (h2 o2).1.2 rfl
  obtain ⟨v1, p1, q1, t1, u1⟩ := facts s j o1 hs hj hi r1
  obtain ⟨v2, p2, q2, t2, u2⟩ := facts s' j' o2 hs' hj' hi' r2
  have same : (∃ o, Reformats E order ryu s o ∧ Reformats E order ryu s' o) ↔ o1 = o2 := by
    constructor
    · rintro ⟨o, a, b⟩
      rw [← (h1 o).1.1 a, ← (h2 o).1.1 b]
    · intro e
      exact ⟨o1, r1, e ▸ r2⟩
  refine ⟨⟨?_, ?_⟩, ?_, ?_⟩
  · intro h
    have e := same.1 h
    obtain ⟨m1, hm1, c1⟩ := (C76_normalizes E hE hu order ho hr s hs j hj o1).1 r1
    obtain ⟨m2, hm2, c2⟩ := (C76_normalizes E hE hu order ho hr s' hs' j' hj' o2).1 r2
    refine ⟨m1, hm1, ?_⟩
    have hc1 : NormalOf lit j ((encV v1).json lit) := by
      obtain ⟨jj, hjj, hv⟩ := (C03_value E s v1).1 p1
      cases JText.unique hj hjj
      exact isValue_normalOf hv (jtext_nums hj)
    have w1 := normal_of hm1 hi
    have w2 := normal_of hm2 hi'
    have x1 : JText (compact m1) m1 := by
      rw [normalOf_unique hm1 hc1]
      obtain ⟨jj, hjj, hv⟩ := (C03_value E s v1).1 p1
      obtain ⟨o, h', hpr, -, -, x, hx, hjo, ex, hvo⟩ := C28_total E order ho hu hr _ _ (C41_type_sound E hE .value trivial s hs v1 p1)
      rw [encodes_encV hx] at hjo ex
      rw [← ex]; exact hjo
    have x2 : JText (compact m2) m2 := by
      obtain ⟨jj, hjj, hv⟩ := (C03_value E s' v2).1 p2
      cases JText.unique hj' hjj
      rw [normalOf_unique hm2 (isValue_normalOf hv (jtext_nums hj'))]
      obtain ⟨o, h', hpr, -, -, x, hx, hjo, ex, hvo⟩ := C28_total E order ho hu hr _ _ (C41_type_sound E hE .value trivial s' hs' v2 p2)
      rw [encodes_encV hx] at hjo ex
      rw [← ex]; exact hjo
    rw [← c1] at x1
    rw [← c2, ← e] at x2
    exact JText.unique x1 x2 ▸ hm2
  · rintro ⟨n, ha, hb⟩
    exact ⟨compact n, (C76_normalizes E hE hu order ho hr s hs j hj _).2 ⟨n, ha, rfl⟩, (C76_normalizes E hE hu order ho hr s' hs' j' hj' _).2 ⟨n, hb, rfl⟩⟩
  · intro h
    have e := same.1 h
    subst e
    rw [q1] at q2
    refine ⟨v1, v2, p1, p2, ?_⟩
    injection q2 with q2
    injection q2
  · rintro ⟨v, v', hv, hv', e⟩
    rw [p1] at hv
    rw [p2] at hv'
    cases hv
    cases hv'
    refine same.2 ?_
    obtain ⟨x, hx, ex, -⟩ := prints_encodes E order ho hu hr u1 t1
    obtain ⟨y, hy, ey, -⟩ := prints_encodes E order ho hu hr u2 t2
    rw [ex, ey, encodes_encV hx, encodes_encV hy, e]

/-- **C76.** If moreover no number is written `-0`, exactly if they parse to the same `Value`. -/
theorem C76_equal_values (E : Env) (hE : E.Lawful) (hu : E.Utf8) (order : Nat → List (Bytes × Val) → List (Bytes × Val))
    (ho : ∀ n ms, (order n ms).Perm ms) (hr : RyuSyntax ryu lit) (s s' : Bytes) (hs : ValidUtf8 s) (hs' : ValidUtf8 s') (j j' : Json) (hj : JText s j)
    (hj' : JText s' j') (hi : j.IntsOnly) (hi' : j'.IntsOnly) :
    (∃ o, Reformats E order ryu s o ∧ Reformats E order ryu s' o) ↔ parseAs E .value s = parseAs E .value s' := by
  rw [(C76_equal E hE hu order ho hr s s' hs hs' j j' hj hj' hi.integers hi'.integers).2]
  have canon : ∀ (s : Bytes) (j : Json) v, JText s j → j.IntsOnly → parseAs E .value s = some (.ok v) → v.canon = v := by
    intro s j v hj hi hv
    obtain ⟨j2, hj2, hv2⟩ := (C03_value E s v).1 hv
    cases JText.unique hj hj2
    exact canon_normal (isValue_normal hv2 hi)
  constructor
  · rintro ⟨v, v', h, h', e⟩
    rw [canon s j v hj hi h, canon s' j' v' hj' hi' h'] at e
    rw [h, h', e]
  · intro e
    obtain ⟨v, hv⟩ := (value_exists j).2 (intsOnly_representable hi)
    have hp := (C03_value E s v).2 ⟨j, hj, hv⟩
    exact ⟨v, v, hp, e ▸ hp, rfl⟩

/-! ## The test of the repository, at any depth -/

/-- `{"x":[` … `]}`, `n + 1` times inside each other. -/
def deepJson : Nat → Json
  | 0 => .obj [(str! "x", .arr [])]
  | n + 1 => .obj [(str! "x", .arr [deepJson n])]

theorem deepJson_normal : ∀ n, (deepJson n).Normal
  | 0 => .obj (List.pairwise_singleton _ _) fun m hm => by cases List.mem_singleton.1 hm; exact .arr (fun _ h => nomatch h)
  | n + 1 => .obj (List.pairwise_singleton _ _) fun m hm => by
    cases List.mem_singleton.1 hm
    exact .arr fun x hx => by cases List.mem_singleton.1 hx; exact deepJson_normal n

theorem deepJson_lits : ∀ n, (deepJson n).LitsWF
  | 0 => by simp [deepJson, Json.LitsWF, Json.LitsWFs, Json.LitsWFMembers]
  | n + 1 => by simp [deepJson, Json.LitsWF, Json.LitsWFs, Json.LitsWFMembers, deepJson_lits n]

theorem deepJson_text : ∀ n, compact (deepJson n) =
    (List.replicate (n + 1) (str! "{\"x\":[")).flatten ++ (List.replicate (n + 1) (str! "]}")).flatten
  | 0 => by decide +kernel
  | n + 1 => by
    have h : compact (deepJson (n + 1)) = (str! "{\"x\":[") ++ compact (deepJson n) ++ str! "]}" := by
      rw [deepJson, compact, compactMembers, compact, compactElems]
      have : quoted (str! "x") = str! "\"x\"" := by decide +kernel
      rw [this]
      simp
    rw [h, deepJson_text n, List.replicate_succ (n := n + 1), List.replicate_succ' (n := n + 1) (a := str! "]}"), List.flatten_cons,
      List.flatten_append]
    simp [List.append_assoc]

theorem deepJson_strs : ∀ n, (deepJson n).AllStr ValidUtf8
  | 0 => by
    simp only [deepJson, Json.AllStr, Json.AllStrs, Json.AllStrMembers]
    exact ⟨valid_ascii (by decide), trivial, trivial⟩
  | n + 1 => by
    simp only [deepJson, Json.AllStr, Json.AllStrs, Json.AllStrMembers]
    exact ⟨valid_ascii (by decide), ⟨deepJson_strs n, trivial⟩, trivial⟩

/-- **C76.** `test_round_trip_deeply_nested` (`tests/test_value.rs:4-20`) passes at every depth. -/
theorem C76_deep (E : Env) (hE : E.Lawful) (hu : E.Utf8) (order : Nat → List (Bytes × Val) → List (Bytes × Val))
    (ho : ∀ n ms, (order n ms).Perm ms) (hr : RyuSyntax ryu lit) (depth : Nat) (hd : 0 < depth) (s : Bytes)
    (e : s = (List.replicate depth (str! "{\"x\":[")).flatten ++ (List.replicate depth (str! "]}")).flatten) (o : Bytes) :
    Reformats E order ryu s o ↔ o = s := by
  obtain ⟨n, rfl⟩ : ∃ n, depth = n + 1 := ⟨depth - 1, by omega⟩
  rw [← deepJson_text] at e
  subst e
  refine C76_fixed E hE hu order ho hr _ (deepJson_normal n) (compact_valid _ (deepJson_lits n) (deepJson_strs n)) (compact_text (deepJson_lits n)) o

end

/-! ## Examples -/

/-- `[{"b":1,"a":-0,"b":2}]` becomes `[{"a":0,"b":2}]`. -/
example : NormalOf exLit (.arr [.obj [(str! "b", .num ⟨false, [0x31], none, none⟩), (str! "a", .num ⟨true, [0x30], none, none⟩),
      (str! "b", .num ⟨false, [0x32], none, none⟩)]])
    (.arr [.obj [(str! "a", .num ⟨false, [0x30], none, none⟩), (str! "b", .num ⟨false, [0x32], none, none⟩)]]) := by
  refine .arr (.cons (.obj (.cons (.num (.int rfl rfl (by decide))) (.cons (.num (.minusZero rfl rfl rfl (by decide)))
    (.cons (.num (.int rfl rfl (by decide))) .nil))) (by simp [SortedKeys, strLt]; decide) fun k => ?_) .nil)
  by_cases h1 : k = str! "a"
  · subst h1; rfl
  · by_cases h2 : k = str! "b"
    · subst h2; rfl
    · simp [lastOcc, lookup_cons', h1, h2]

/-- The hypotheses of `C76_idempotent` are met by ` [1, {"a":null}] `. -/
example : ∃ o, ∀ p, Reformats exEnv exOrder (fun x => (exLit x).text) (str! " [1, {\"a\":null}] ") p ↔ p = o := by
  obtain ⟨o, -, -, -, -, h⟩ := C76_idempotent exEnv exEnv_lawful exEnv_utf8 exOrder (fun _ _ => .refl _) exRyu
    (str! " [1, {\"a\":null}] ") (valid_ascii (by decide)) exTree exText_tree
    (Json.Integers.arr fun x hx => by
      simp only [List.mem_cons, List.not_mem_nil, or_false] at hx
      rcases hx with rfl | rfl
      · exact .num rfl rfl (by decide)
      · exact .obj fun m hm => by cases List.mem_singleton.1 hm; exact .null)
  exact ⟨o, fun p => (h p).1⟩

/-- `-0` and `0` are different `Value`s with the same text. -/
example : (∃ o, Reformats exEnv exOrder (fun x => (exLit x).text) (str! "-0") o ∧ Reformats exEnv exOrder (fun x => (exLit x).text) (str! "0") o) ∧
    parseAs exEnv .value (str! "-0") = some (.ok (.numI 0)) ∧ parseAs exEnv .value (str! "0") = some (.ok (.numU 0)) := by
  have hm : JText (str! "-0") (.num ⟨true, [0x30], none, none⟩) :=
    ⟨[], _, [], rfl, by simp [Ws], .num ⟨true, [0x30], none, none⟩ ⟨by decide, by decide, by simp, by simp⟩, by simp [Ws]⟩
  have hz : JText (str! "0") (.num ⟨false, [0x30], none, none⟩) :=
    ⟨[], _, [], rfl, by simp [Ws], .num ⟨false, [0x30], none, none⟩ ⟨by decide, by decide, by simp, by simp⟩, by simp [Ws]⟩
  have a : parseAs exEnv .value (str! "-0") = some (.ok (.numI 0)) :=
    (C03_value _ _ _).2 ⟨_, hm, .num (numEvent_int rfl rfl) (.neg 0)⟩
  have b : parseAs exEnv .value (str! "0") = some (.ok (.numU 0)) :=
    (C03_value _ _ _).2 ⟨_, hz, .num (numEvent_int rfl rfl) (.pos 0)⟩
  exact ⟨(C76_equal exEnv exEnv_lawful exEnv_utf8 exOrder (fun _ _ => .refl _) exRyu _ _ (valid_ascii (by decide)) (valid_ascii (by decide)) _ _ hm hz
    (.num rfl rfl (by decide)) (.num rfl rfl (by decide))).2.2 ⟨_, _, a, b, by simp [Val.canon]⟩, a, b⟩

/-- The depth the test uses. -/
example (o : Bytes) : Reformats exEnv exOrder (fun x => (exLit x).text)
    ((List.replicate 100000 (str! "{\"x\":[")).flatten ++ (List.replicate 100000 (str! "]}")).flatten) o ↔
    o = (List.replicate 100000 (str! "{\"x\":[")).flatten ++ (List.replicate 100000 (str! "]}")).flatten :=
  C76_deep exEnv exEnv_lawful exEnv_utf8 exOrder (fun _ _ => .refl _) exRyu 100000 (by omega) _ rfl o

end Miniserde
