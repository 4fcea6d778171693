import Verif.Model.CallDepth
import Verif.Spec.CallDepth
import Verif.Spec.ValueApi
import Verif.Proof.ValueApi2
import Verif.Props.Typed
import Verif.Proof.ViaValue
import Verif.Proof.Reparse
import Verif.Proof.SerCost
import Verif.Proof.Cost

/-!
# `Clone` and `Debug` nest as deep as the value
-/

namespace Miniserde

theorem levels_pos : ∀ (v : Val), 1 ≤ v.levels := by
  intro v; cases v <;> simp [Val.levels]

/-! ## Clone -/

mutual

theorem cloneL_eq : ∀ (v : LVal) (d n : Nat), v.cloneL d n = if v.val.levels ≤ d then some (v.clone n) else none
  | v, 0, n => by
    have := levels_pos v.val
    rw [LVal.cloneL, if_neg (by omega)]
  | .scalar i s, d + 1, n => by
    have e : (LVal.scalar i s).val.levels = 1 := by rw [LVal.val]; cases s <;> simp [Scalar.val, Val.levels]
    rw [LVal.cloneL, if_pos (by omega), LVal.clone]
  | .array i xs, d + 1, n => by
    rw [LVal.cloneL, LVal.val, Val.levels, LVal.clone]
    rw [clonesL_eq xs d (n + 1)]
    by_cases h : Val.levelsAll (LVal.vals xs) ≤ d
    · rw [if_pos h, if_pos (by omega)]; rfl
    · rw [if_neg h, if_neg (by omega)]; rfl
  | .object i ms, d + 1, n => by
    rw [LVal.cloneL, LVal.val, Val.levels, LVal.clone]
    rw [cloneEntriesL_eq ms d (n + 1)]
    by_cases h : Val.levelsEntries (LVal.valEntries ms) ≤ d
    · rw [if_pos h, if_pos (by omega)]; rfl
    · rw [if_neg h, if_neg (by omega)]; rfl

theorem clonesL_eq : ∀ (xs : List LVal) (d n : Nat), LVal.clonesL d n xs = if Val.levelsAll (LVal.vals xs) ≤ d then some (LVal.clones n xs) else none
  | [], d, n => by rw [LVal.clonesL, LVal.vals, Val.levelsAll, if_pos (Nat.zero_le d), LVal.clones]
  | x :: xs, d, n => by
    rw [LVal.clonesL, LVal.vals, Val.levelsAll, cloneL_eq x d n, LVal.clones]
    by_cases h : x.val.levels ≤ d
    · rw [if_pos h, Option.bind_some, clonesL_eq xs d]
      by_cases h' : Val.levelsAll (LVal.vals xs) ≤ d
      · rw [if_pos h', if_pos (by omega)]; rfl
      · rw [if_neg h', if_neg (by omega)]; rfl
    · rw [if_neg h, if_neg (by omega)]; rfl

theorem cloneEntriesL_eq : ∀ (ms : List (Bytes × Nat × LVal)) (d n : Nat),
    LVal.cloneEntriesL d n ms = if Val.levelsEntries (LVal.valEntries ms) ≤ d then some (LVal.cloneEntries n ms) else none
  | [], d, n => by rw [LVal.cloneEntriesL, LVal.valEntries, Val.levelsEntries, if_pos (Nat.zero_le d), LVal.cloneEntries]
  | (k, l, x) :: ms, d, n => by
    rw [LVal.cloneEntriesL, LVal.valEntries, Val.levelsEntries, cloneL_eq x d (n + 1), LVal.cloneEntries]
    by_cases h : x.val.levels ≤ d
    · rw [if_pos h, Option.bind_some, cloneEntriesL_eq ms d]
      by_cases h' : Val.levelsEntries (LVal.valEntries ms) ≤ d
      · rw [if_pos h', if_pos (by omega)]; rfl
      · rw [if_neg h', if_neg (by omega)]; rfl
    · rw [if_neg h, if_neg (by omega)]; rfl

end

/-! ## Debug -/

section
variable (ryu : F64 → Bytes) (strWrites : Bytes → List Bytes) (alt : Bool)

theorem fmtL_scalar {v : Val} (h1 : ∀ vs, v ≠ .seq vs) (h2 : ∀ ms, v ≠ .map ms) (d : Nat) {σ : Type} (w : σ → Bytes → σ) (s : σ) :
    fmtValueL ryu strWrites alt d v w s = if v.levels ≤ d then some (fmtValue ryu strWrites alt v w s) else none := by
  have e : v.levels = 1 := by
    cases v <;> first | rfl | exact absurd rfl (h1 _) | exact absurd rfl (h2 _)
  cases d with
  | zero => rw [fmtValueL, if_neg (by omega)]
  | succ d =>
    rw [if_pos (by omega)]
    cases v <;> first | exact absurd rfl (h1 _) | exact absurd rfl (h2 _) | (rw [fmtValueL] <;> simp)

mutual

theorem fmtValueL_eq : ∀ (v : Val) (d : Nat) {σ : Type} (w : σ → Bytes → σ) (s : σ),
    fmtValueL ryu strWrites alt d v w s = if v.levels ≤ d then some (fmtValue ryu strWrites alt v w s) else none
  | .seq vs, 0, _, w, s => by rw [fmtValueL, Val.levels, if_neg (by omega)]
  | .seq vs, d + 1, _, w, s => by
    rw [fmtValueL, Val.levels, fmtEntriesL_eq vs d false w _, fmtValue]
    by_cases h : Val.levelsAll vs ≤ d
    · rw [if_pos h, if_pos (by omega)]; rfl
    · rw [if_neg h, if_neg (by omega)]; rfl
  | .map ms, 0, _, w, s => by rw [fmtValueL, Val.levels, if_neg (by omega)]
  | .map ms, d + 1, _, w, s => by
    rw [fmtValueL, Val.levels, fmtMembersL_eq ms d false w _, fmtValue]
    by_cases h : Val.levelsEntries ms ≤ d
    · rw [if_pos h, if_pos (by omega)]; rfl
    · rw [if_neg h, if_neg (by omega)]; rfl
  | .null, d, _, w, s => fmtL_scalar _ _ _ (by simp) (by simp) d w s
  | .bool _, d, _, w, s => fmtL_scalar _ _ _ (by simp) (by simp) d w s
  | .int _, d, _, w, s => fmtL_scalar _ _ _ (by simp) (by simp) d w s
  | .f32 _, d, _, w, s => fmtL_scalar _ _ _ (by simp) (by simp) d w s
  | .f64 _, d, _, w, s => fmtL_scalar _ _ _ (by simp) (by simp) d w s
  | .numU _, d, _, w, s => fmtL_scalar _ _ _ (by simp) (by simp) d w s
  | .numI _, d, _, w, s => fmtL_scalar _ _ _ (by simp) (by simp) d w s
  | .numF _, d, _, w, s => fmtL_scalar _ _ _ (by simp) (by simp) d w s
  | .str _, d, _, w, s => fmtL_scalar _ _ _ (by simp) (by simp) d w s
  | .optNone, d, _, w, s => fmtL_scalar _ _ _ (by simp) (by simp) d w s
  | .optSome _, d, _, w, s => fmtL_scalar _ _ _ (by simp) (by simp) d w s
  | .box _, d, _, w, s => fmtL_scalar _ _ _ (by simp) (by simp) d w s
  | .strct _, d, _, w, s => fmtL_scalar _ _ _ (by simp) (by simp) d w s
  | .enm _, d, _, w, s => fmtL_scalar _ _ _ (by simp) (by simp) d w s

theorem fmtEntriesL_eq : ∀ (vs : List Val) (d : Nat) (has : Bool) {σ : Type} (w : σ → Bytes → σ) (s : σ),
    fmtEntriesL ryu strWrites alt d vs has w s = if Val.levelsAll vs ≤ d then some (fmtEntries ryu strWrites alt vs has w s) else none
  | [], d, has, _, w, s => by rw [fmtEntriesL, Val.levelsAll, if_pos (Nat.zero_le d), fmtEntries]
  | v :: vs, d, has, _, w, s => by
    rw [fmtEntriesL, Val.levelsAll, fmtEntries]
    by_cases h : v.levels ≤ d
    · by_cases h' : Val.levelsAll vs ≤ d
      · rw [if_pos (show max v.levels (Val.levelsAll vs) ≤ d by omega)]
        simp only [fmtValueL_eq v, if_pos h, Option.bind_some, fmtEntriesL_eq vs, if_pos h']
        cases alt <;> rfl
      · rw [if_neg (show ¬ max v.levels (Val.levelsAll vs) ≤ d by omega)]
        simp only [fmtValueL_eq v, if_pos h, Option.bind_some, fmtEntriesL_eq vs, if_neg h']
        cases alt <;> rfl
    · rw [if_neg (show ¬ max v.levels (Val.levelsAll vs) ≤ d by omega)]
      simp only [fmtValueL_eq v, if_neg h, Option.bind_none]
      cases alt <;> rfl

theorem fmtMembersL_eq : ∀ (ms : List (Bytes × Val)) (d : Nat) (has : Bool) {σ : Type} (w : σ → Bytes → σ) (s : σ),
    fmtMembersL ryu strWrites alt d ms has w s = if Val.levelsEntries ms ≤ d then some (fmtMembers ryu strWrites alt ms has w s) else none
  | [], d, has, _, w, s => by rw [fmtMembersL, Val.levelsEntries, if_pos (Nat.zero_le d), fmtMembers]
  | (k, v) :: ms, d, has, _, w, s => by
    rw [fmtMembersL, Val.levelsEntries, fmtMembers]
    by_cases h : v.levels ≤ d
    · by_cases h' : Val.levelsEntries ms ≤ d
      · rw [if_pos (show max v.levels (Val.levelsEntries ms) ≤ d by omega)]
        simp only [fmtValueL_eq v, if_pos h, Option.bind_some, fmtMembersL_eq ms, if_pos h']
        cases alt <;> rfl
      · rw [if_neg (show ¬ max v.levels (Val.levelsEntries ms) ≤ d by omega)]
        simp only [fmtValueL_eq v, if_pos h, Option.bind_some, fmtMembersL_eq ms, if_neg h']
        cases alt <;> rfl
    · rw [if_neg (show ¬ max v.levels (Val.levelsEntries ms) ≤ d by omega)]
      simp only [fmtValueL_eq v, if_neg h, Option.bind_none]
      cases alt <;> rfl

end

end

/-! ## Texts -/

theorem levelsEntries_le {ms : List (Bytes × Val)} {n : Nat} : Val.levelsEntries ms ≤ n ↔ ∀ m ∈ ms, m.2.levels ≤ n := by
  induction ms with
  | nil => simp [Val.levelsEntries]
  | cons m ms ih => obtain ⟨k, v⟩ := m; simp only [Val.levelsEntries, List.mem_cons, forall_eq_or_imp, ← ih]; omega

mutual

theorem isValue_levels : ∀ {j : Json} {v : Val}, IsValue j v → v.levels ≤ j.levels
  | _, _, .null => by simp [Val.levels, Json.levels]
  | _, _, .bool _ => by simp [Val.levels, Json.levels]
  | _, _, .str _ => by simp [Val.levels, Json.levels]
  | _, _, .num _ hv => by cases hv <;> simp [Val.levels, Json.levels]
  | _, _, .arr h => by
    have := areValues_levels h
    rw [Val.levels, Json.levels]; omega
  | _, _, .obj (m := m) h hs hm => by
    have := areMembers_levels h
    rw [Val.levels, Json.levels]
    have : Val.levelsEntries m ≤ _ := levelsEntries_le.2 fun e he => this e (by
      have h1 := lookup_isSome_of_mem (k := e.1) (v := e.2) (SortedKeys.nodup strLt_linear hs) he
      rw [hm] at h1
      exact mem_of_lastOcc h1)
    omega

theorem areValues_levels : ∀ {xs : List Json} {vs : List Val}, AreValues xs vs → Val.levelsAll vs ≤ Json.levelsAll xs
  | _, _, .nil => by simp [Val.levelsAll]
  | _, _, .cons h hs => by
    have h1 := isValue_levels h
    have h2 := areValues_levels hs
    rw [Val.levelsAll, Json.levelsAll]; omega

theorem areMembers_levels : ∀ {ms : List (Bytes × Json)} {kvs : List (Bytes × Val)}, AreMembers ms kvs → ∀ e ∈ kvs, e.2.levels ≤ Json.levelsMembers ms
  | _, _, .nil => by simp
  | _, _, .cons h hs => by
    have h1 := isValue_levels h
    have h2 := areMembers_levels hs
    intro e he
    rw [Json.levelsMembers]
    rcases List.mem_cons.1 he with rfl | he
    · simp only; omega
    · have := h2 e he; omega

end

mutual

theorem jvalue_levels : ∀ {t : Bytes} {j : Json}, JValue t j → 2 * j.levels ≤ t.length + 1
  | _, _, .null => by simp [Json.levels]
  | _, _, .true => by simp [Json.levels]
  | _, _, .false => by simp [Json.levels]
  | _, _, .num l h => by have := numlit_pos h; rw [Json.levels]; · omega
                         all_goals simp
  | _, _, .str h => by have := jstring_length h; rw [Json.levels]; · omega
                       all_goals simp
  | _, _, .arrEmpty _ => by simp [Json.levels, Json.levelsAll]
  | _, _, .arr h => by
    have := jelements_levels h
    rw [Json.levels]; simp only [List.length_cons, List.length_append, List.length_nil]; omega
  | _, _, .objEmpty _ => by simp [Json.levels, Json.levelsMembers]
  | _, _, .obj h => by
    have := jmembers_levels h
    rw [Json.levels]; simp only [List.length_cons, List.length_append, List.length_nil]; omega

theorem jelements_levels : ∀ {t : Bytes} {xs : List Json}, JElements t xs → 2 * Json.levelsAll xs ≤ t.length + 1
  | _, _, .one _ h _ => by
    have := jvalue_levels h
    simp only [Json.levelsAll, List.length_append]; omega
  | _, _, .cons _ h _ hs => by
    have := jvalue_levels h
    have := jelements_levels hs
    simp only [Json.levelsAll, List.length_append, List.length_cons]; omega

theorem jmembers_levels : ∀ {t : Bytes} {ms : List (Bytes × Json)}, JMembers t ms → 2 * Json.levelsMembers ms ≤ t.length + 1
  | _, _, .one _ _ _ _ h _ => by
    have := jvalue_levels h
    simp only [Json.levelsMembers, List.length_append, List.length_cons]; omega
  | _, _, .cons _ _ _ _ h _ hs => by
    have := jvalue_levels h
    have := jmembers_levels hs
    simp only [Json.levelsMembers, List.length_append, List.length_cons]; omega

end

/-- `n` arrays, one inside the other. -/
def nestVal : Nat → Val
  | 0 => .seq []
  | n + 1 => .seq [nestVal n]

def nestJson : Nat → Json
  | 0 => .arr []
  | n + 1 => .arr [nestJson n]

def nestText : Nat → Bytes
  | 0 => str! "[]"
  | n + 1 => str! "[" ++ nestText n ++ str! "]"

theorem nest_length : ∀ n, (nestText n).length = 2 * (n + 1)
  | 0 => rfl
  | n + 1 => by simp [nestText, nest_length n]; omega

theorem nest_levels : ∀ n, (nestVal n).levels = n + 1
  | 0 => by simp [nestVal, Val.levels, Val.levelsAll]
  | n + 1 => by simp [nestVal, Val.levels, Val.levelsAll, nest_levels n]; omega

theorem nest_value : ∀ n, JValue (nestText n) (nestJson n)
  | 0 => .arrEmpty (w := []) (by simp [Ws])
  | n + 1 => by
    have := JValue.arr (.one (w₁ := []) (w₂ := []) (by simp [Ws]) (nest_value n) (by simp [Ws]))
    simpa [nestText, nestJson] using this

theorem nest_isValue : ∀ n, IsValue (nestJson n) (nestVal n)
  | 0 => .arr .nil
  | n + 1 => .arr (.cons (nest_isValue n) .nil)

end Miniserde
