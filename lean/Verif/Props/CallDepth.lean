import Verif.Proof.CallDepth
import Verif.Proof.Prefix
import Verif.Props.Conformance

/-!
# `Clone` and `Debug` of `Value` recurse
-/

namespace Miniserde

/-- **C84.** `clone` needs a stack for exactly as many nested calls as the value has levels: with fewer it overflows, with that many it returns what `clone` returns. -/
theorem C84_clone (v : LVal) (d n : Nat) :
    (v.val.levels ≤ d → v.cloneL d n = some (v.clone n)) ∧ (d < v.val.levels → v.cloneL d n = none) := by
  rw [cloneL_eq]
  exact ⟨fun h => if_pos h, fun h => if_neg (by omega)⟩

/-- **C84.** So does `Debug`, with `{:?}` and with `{:#?}`. -/
theorem C84_debug (ryu : F64 → Bytes) (strWrites : Bytes → List Bytes) (alt : Bool) (v : Val) (d : Nat) :
    (v.levels ≤ d → formatDebugL ryu strWrites alt d v = some (formatDebug ryu strWrites alt v)) ∧ (d < v.levels → formatDebugL ryu strWrites alt d v = none) := by
  rw [formatDebugL, fmtValueL_eq]
  exact ⟨fun h => if_pos h, fun h => if_neg (by omega)⟩

/-- **C84.** A `Value` read from a text has no more levels than the text, and at most half as many, rounded up, as the text has bytes ... -/
theorem C84_parsed (E : Env) (s : Bytes) (v : Val) (h : parseAs E .value s = some (.ok v)) :
    (∀ j, JText s j → v.levels ≤ j.levels) ∧ 2 * v.levels ≤ s.length + 1 := by
  obtain ⟨j, hj, hv⟩ := (C03_value E s v).1 h
  have h1 := isValue_levels hv
  refine ⟨fun j' hj' => JText.unique hj' hj ▸ h1, ?_⟩
  obtain ⟨w₁, t, w₂, rfl, -, ht, -⟩ := hj
  have := jvalue_levels ht
  simp only [List.length_append]; omega

/-- **C84.** ... so whoever limits the length of the texts can clone and format what was read: `d` nested calls are enough for texts shorter than `2 * d`. -/
theorem C84_enough (E : Env) (ryu : F64 → Bytes) (strWrites : Bytes → List Bytes) (alt : Bool) (s : Bytes) (d n : Nat) (hs : s.length < 2 * d) (v : LVal)
    (h : parseAs E .value s = some (.ok v.val)) :
    v.cloneL d n = some (v.clone n) ∧ formatDebugL ryu strWrites alt d v.val = some (formatDebug ryu strWrites alt v.val) := by
  have := (C84_parsed E s v.val h).2
  exact ⟨(C84_clone v d n).1 (by omega), (C84_debug ryu strWrites alt v.val d).1 (by omega)⟩

/-- **C84.** But however large the stack is, there is a text, hardly longer, that `from_str` reads and whose value can neither be cloned nor formatted. -/
theorem C84_overflow (E : Env) (ryu : F64 → Bytes) (strWrites : Bytes → List Bytes) (d : Nat) : ∃ s v, s.length = 2 * (d + 1) ∧ parseAs E .value s = some (.ok v) ∧
    (∀ (x : LVal) (n : Nat), x.val = v → x.cloneL d n = none) ∧ ∀ alt, formatDebugL ryu strWrites alt d v = none := by
  refine ⟨nestText d, nestVal d, nest_length d, ?_, fun x n hx => ?_, fun alt => ?_⟩
  · exact (C03_value E _ _).2 ⟨nestJson d, ⟨[], _, [], by simp, by simp [Ws], nest_value d, by simp [Ws]⟩, nest_isValue d⟩
  · exact (C84_clone x d n).2 (by rw [hx, nest_levels]; omega)
  · exact (C84_debug ryu strWrites alt _ d).2 (by rw [nest_levels]; omega)

/-- `[[]]` can be cloned with two nested calls, not with one. -/
example : (LVal.array 0 [.array 1 []]).cloneL 2 7 = some (9, .array 7 [.array 8 []]) ∧ (LVal.array 0 [.array 1 []]).cloneL 1 7 = none := by
  constructor
  · rw [(C84_clone _ 2 7).1 (by simp [LVal.val, LVal.vals, Val.levels, Val.levelsAll])]
    simp [LVal.clone, LVal.clones]
  · exact (C84_clone _ 1 7).2 (by simp [LVal.val, LVal.vals, Val.levels, Val.levelsAll])

/-- A text of twelve bytes. -/
example : (LVal.object 0 [(str! "k", 1, .array 2 [.scalar 3 .null])]).cloneL 8 9 = some ((LVal.object 0 [(str! "k", 1, .array 2 [.scalar 3 .null])]).clone 9) :=
  (C84_enough exEnv (fun _ => []) (fun _ => []) false (str! "{\"k\":[null]}") 8 9 (by decide) _ (by
    rw [show (LVal.object 0 [(str! "k", 1, .array 2 [.scalar 3 .null])]).val = .map [(str! "k", .seq [.null])] by
      simp [LVal.val, LVal.valEntries, LVal.vals, Scalar.val]]
    exact okWith_eq (by decide +kernel))).1

end Miniserde
