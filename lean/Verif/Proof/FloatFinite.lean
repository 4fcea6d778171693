import Verif.Proof.FloatLit
import Verif.Proof.DecodeInd

/-!
# Delivered floats are finite and carry the sign of the literal
-/

namespace Miniserde

theorem fromParts_fin (nn : Bool) {n : Nat} (hn : n ≤ u64Max) (E : Int) :
    De.f64FromParts nn n E = .err ∨ ∃ m e, De.f64FromParts nn n E = .ok (.fin (!nn) m e) ∧ (Flt.fin (!nn) m e).Valid binary64 := by
  have := fromParts_near nn hn E
  generalize De.f64FromParts nn n E = r at this
  cases this with
  | err h => exact .inl rfl
  | @ok m e hv h => exact .inr ⟨m, e, rfl, hv⟩

theorem expValue_fin (nn : Bool) {n : Nat} (hn : n ≤ u64Max) (st : Int) (xo : Option ExpPart) :
    expValue nn n st xo = .err ∨ ∃ m e, expValue nn n st xo = .ok (.fin (!nn) m e) ∧ (Flt.fin (!nn) m e).Valid binary64 := by
  cases xo with
  | none => exact fromParts_fin nn hn st
  | some x =>
    unfold expValue
    simp only
    split
    · split
      · exact .inl rfl
      · exact .inr ⟨0, binary64.emin, rfl, by decide, le_refl _, by decide, .inl rfl⟩
    · exact fromParts_fin nn hn _

theorem ofNat_neg_fin {n : Nat} (hn : n ≤ u64Max) :
    ∃ m e, (Flt.ofNat binary64 n).neg = .fin true m e ∧ (Flt.fin true m e).Valid binary64 := by
  obtain ⟨m, e, h, hv, -⟩ := ofNat_near hn
  exact ⟨m, e, by rw [h]; rfl, hv⟩

/-- What a literal can be delivered as. -/
theorem numEvent_range {l : NumLit} {ev : Event} (h : numEvent l = .ok ev) :
    (∃ n, ev = .nonnegative n ∧ n ≤ u64Max ∧ l.minus = false) ∨
    (∃ z, ev = .negative z ∧ i64Min ≤ z ∧ z ≤ 0 ∧ l.minus = true) ∨
    (∃ m e, ev = .float (.fin l.minus m e) ∧ (Flt.fin l.minus m e).Valid binary64) := by
  by_cases hi : l.isInt
  · rw [numEvent_int hi.2.1 hi.2.2, if_pos hi.1] at h
    split at h
    · rename_i hm
      split at h
      · rename_i h1
        cases h
        refine .inr (.inl ⟨_, rfl, ?_, by omega, hm⟩)
        have : i64Min = -9223372036854775808 := rfl
        omega
      · cases h
        obtain ⟨m, e, h1, hv⟩ := ofNat_neg_fin hi.1
        refine .inr (.inr ⟨m, e, by rw [h1, hm], by rw [hm]; exact hv⟩)
    · rename_i hm
      cases h
      exact .inl ⟨_, rfl, hi.1, by simpa using hm⟩
  · rcases numEvent_float hi with h1 | h1
    · rcases expValue_fin (!l.minus) (sigExp_le l) (sigExp l).2 l.exp with h2 | ⟨m, e, h2, hv⟩
      · rw [h1, h2] at h; cases h
      · rw [h1, h2] at h
        rw [Bool.not_not] at hv h
        cases h
        exact .inr (.inr ⟨m, e, rfl, hv⟩)
    · rw [h1] at h; cases h

theorem Outcome.valid {f : Fmt} {s : Bool} {r : ℚ} {x : Flt} (h : Outcome f s r x) : x.Valid f := by
  cases h with
  | inf => trivial
  | fin hv => exact hv

theorem ofInt_outcome {f : Fmt} (hf : f.Ok) (z : Int) : Outcome f (decide (z < 0)) (z.natAbs : ℚ) (Flt.ofInt f z) := by
  have h := round_outcome hf (decide (z < 0)) z.natAbs 1 (by omega)
  rwa [Nat.cast_one, div_one] at h

/-- Machine integers are finite as `f64`. -/
theorem ofInt_fin {z : Int} (h : z.natAbs ≤ u64Max) :
    ∃ m e, Flt.ofInt binary64 z = .fin (decide (z < 0)) m e ∧ (Flt.fin (decide (z < 0)) m e).Valid binary64 := by
  have ho := ofInt_outcome binary64_ok z
  cases hf : Flt.ofInt binary64 z with
  | nan => rw [hf] at ho; cases ho
  | inf s =>
    rw [hf] at ho
    cases ho with
    | inf hl =>
      exfalso
      have := u64_lt_limit
      have hn : (z.natAbs : ℚ) ≤ 18446744073709551615 := by exact_mod_cast h
      norm_num at this hn hl
      linarith
  | fin s m e =>
    rw [hf] at ho
    cases ho with
    | fin hv hl hnear => exact ⟨m, e, rfl, hv⟩

end Miniserde
