import Verif.Proof.Reparse
import Verif.Props.Float

/-!
# Reparsing a `Value`
-/

namespace Miniserde

section
variable {ryu : F64 → Bytes} {lit : F64 → NumLit}

/-- **C34.** Writing a float-free `Value` and reading it back gives the value with every non-negative `Number::I64` turned into the equal
`Number::U64`; writing that gives the same bytes again, hence so do all later rounds. -/
theorem C34_value (E : Env) (order : Nat → List (Bytes × Val) → List (Bytes × Val)) (ho : ∀ n ms, (order n ms).Perm ms) (hE : E.Utf8)
    (hr : RyuSyntax ryu lit) (v : Val) (h : HasTy E .value v) (hf : v.FloatFree) (o : Bytes) (hp : PrintsAs E order ryu .value v o) :
    parseAs E .value o = some (.ok v.canon) ∧ PrintsAs E order ryu .value v.canon o ∧ HasTy E .value v.canon ∧ v.canon.FloatFree ∧
      v.canon.canon = v.canon := by
  obtain ⟨x, hx, e, hj, -⟩ := prints_encodes E order ho hE hr h hp
  obtain ⟨h1, h2, x', h3, h4⟩ := canon_encodes (lit := lit) hx h hf
  obtain ⟨o', h', hp', -, -, y, hy, -, e', -⟩ := C28_total E order ho hE hr _ _ h1
  have hxy := encodes_value_unique h3 hy
  subst hxy
  have ho' : o' = o := by rw [e', e, h4]
  subst ho'
  refine ⟨(parseAs_ok E).2 ⟨_, hj, ?_⟩, ⟨_, hp'⟩, h1, normal_floatFree h2, canon_normal h2⟩
  rw [← h4]
  exact back_value h3 h1 (normal_plain h2)

/-- **C34.** From a text: read it, write it, read it, write it.  The two written texts are identical, and the two values equal up to the
replacement. -/
theorem C34_text (E : Env) (hE : E.Lawful) (hu : E.Utf8) (order : Nat → List (Bytes × Val) → List (Bytes × Val))
    (ho : ∀ n ms, (order n ms).Perm ms) (hr : RyuSyntax ryu lit) (s : Bytes) (hs : ValidUtf8 s) (v : Val)
    (h : parseAs E .value s = some (.ok v)) (hf : v.FloatFree) :
    ∃ o, PrintsAs E order ryu .value v o ∧ parseAs E .value o = some (.ok v.canon) ∧ PrintsAs E order ryu .value v.canon o := by
  have ht := C41_type_sound E hE .value trivial s hs v h
  obtain ⟨o, h', hp, -⟩ := C28_total E order ho hu hr _ _ ht
  obtain ⟨h1, h2, -⟩ := C34_value E order ho hu hr v ht hf o ⟨h', hp⟩
  exact ⟨o, ⟨h', hp⟩, h1, h2⟩

mutual

theorem intsOnly_representable : ∀ {j : Json}, j.IntsOnly → representable j = true
  | .null, _ | .bool _, _ | .str _, _ => by simp only [representable]
  | .num l, h => by
    cases h with
    | num hf he hr =>
      rw [representable]
      have hn := numEvent_int hf he
      cases hm : l.minus <;> rw [hm] at hr hn
      · simp only [Bool.false_eq_true, if_false] at hr hn
        rw [if_pos (by unfold u64Max; omega)] at hn
        rw [hn]; rfl
      · simp only [if_true] at hr hn
        rw [if_pos (by unfold u64Max; omega), if_pos (by omega)] at hn
        rw [hn]; rfl
  | .arr xs, h => by cases h with | arr h => rw [representable]; exact intsOnly_representables h
  | .obj ms, h => by cases h with | obj h => rw [representable]; exact intsOnly_members h

theorem intsOnly_representables : ∀ {xs : List Json}, (∀ x ∈ xs, x.IntsOnly) → representables xs = true
  | [], _ => by rw [representables]
  | x :: xs, h => by
    rw [representables, intsOnly_representable (h x List.mem_cons_self), intsOnly_representables fun y hy => h y (List.mem_cons_of_mem _ hy)]
    rfl

theorem intsOnly_members : ∀ {ms : List (Bytes × Json)}, (∀ m ∈ ms, m.2.IntsOnly) → representableMembers ms = true
  | [], _ => by rw [representableMembers]
  | (k, x) :: ms, h => by
    rw [representableMembers, intsOnly_representable (h (k, x) List.mem_cons_self), intsOnly_members fun y hy => h y (List.mem_cons_of_mem _ hy)]
    rfl

end

/-- **C34.** If all numbers of the text are integers in range and none is written `-0`, the same `Value` comes back. -/
theorem C34_integers (E : Env) (hE : E.Lawful) (hu : E.Utf8) (order : Nat → List (Bytes × Val) → List (Bytes × Val))
    (ho : ∀ n ms, (order n ms).Perm ms) (hr : RyuSyntax ryu lit) (s : Bytes) (hs : ValidUtf8 s) (j : Json) (hj : JText s j) (hi : j.IntsOnly) :
    ∃ v o, parseAs E .value s = some (.ok v) ∧ PrintsAs E order ryu .value v o ∧ parseAs E .value o = some (.ok v) := by
  obtain ⟨v, hv⟩ := (value_exists j).2 (intsOnly_representable hi)
  have hp := (C03_value E s v).2 ⟨j, hj, hv⟩
  have hn := isValue_normal hv hi
  obtain ⟨o, h1, h2, -⟩ := C34_text E hE hu order ho hr s hs v hp (normal_floatFree hn)
  rw [canon_normal hn] at h2
  exact ⟨v, o, hp, h1, h2⟩

end

/-- The only difference: `-0` is read as `Number::I64(0)`, written `0` and read as `Number::U64(0)`. -/
example (E : Env) : parseAs E .value (str! "-0") = some (.ok (.numI 0)) ∧ (Val.numI 0).canon = .numU 0 := by
  refine ⟨(parseAs_ok E).2 ⟨.num ⟨true, str! "0", none, none⟩, num_text ⟨true, str! "0", none, none⟩ ⟨by decide, by decide, by simp, by simp⟩, ?_⟩, ?_⟩
  · exact decode_num' _ (ev := .negative 0) (by decide +kernel) rfl
  · simp [Val.canon]

/-- `{"y":[1],"x":1,"x":1}` meets the hypotheses. -/
example : ValidUtf8 exObj ∧ JText exObj (.obj exObjMembers) ∧ (Json.obj exObjMembers).IntsOnly := by
  have one : (Json.num litOne).IntsOnly := .num rfl rfl (by decide)
  refine ⟨valid_ascii (by decide), exObj_text, .obj fun m hm => ?_⟩
  simp only [exObjMembers, List.mem_cons, List.not_mem_nil, or_false] at hm
  rcases hm with rfl | rfl | rfl
  · exact .arr fun x hx => by rw [List.mem_singleton] at hx; exact hx ▸ one
  · exact one
  · exact one

end Miniserde
