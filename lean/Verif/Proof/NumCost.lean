import Verif.Proof.FloatParts
import Verif.Spec.NumCost

/-!
# The conversion loop runs at most three times
-/

namespace Miniserde

/-- A run within the budget is a run of the loop. -/
theorem f64LoopWithin_sound : ∀ {n : Nat} {f : F64} {E : Int} {r : Res F64}, f64LoopWithin n f E = some r → De.f64Loop f E = r
  | 0, _, _, _, h => nomatch h
  | n + 1, f, E, r, h => by
    rw [f64LoopWithin] at h
    rw [De.f64Loop]
    by_cases hk : E.natAbs < 309
    · rw [POW10_some hk]
      rw [if_pos hk] at h
      simp only at h ⊢
      split at h <;> (cases h; rename_i h0; simp [h0])
    · rw [POW10_none hk]
      rw [if_neg hk] at h
      simp only
      by_cases hz : f.isZero = true
      · rw [if_pos hz] at h ⊢; cases h; rfl
      · rw [if_neg hz] at h ⊢
        by_cases h0 : E ≥ 0
        · rw [if_pos h0] at h; rw [dif_pos h0]; cases h; rfl
        · rw [if_neg h0] at h
          rw [dif_neg h0, dif_pos (by omega)]
          exact f64LoopWithin_sound h

theorem f64LoopWithin_now {n : Nat} {f : F64} {E : Int} (h : E.natAbs < 309 ∨ f.isZero = true ∨ E ≥ 0) : ∃ r, f64LoopWithin (n + 1) f E = some r := by
  rw [f64LoopWithin]
  by_cases hk : E.natAbs < 309
  · rw [if_pos hk]; split <;> exact ⟨_, rfl⟩
  · rw [if_neg hk]
    by_cases hz : f.isZero = true
    · rw [if_pos hz]; exact ⟨_, rfl⟩
    · rw [if_neg hz, if_pos ((h.resolve_left hk).resolve_left hz)]; exact ⟨_, rfl⟩

theorem f64LoopWithin_next {n : Nat} {f : F64} {E : Int} (hk : ¬ E.natAbs < 309) (hz : ¬ f.isZero = true) (h0 : ¬ E ≥ 0) :
    f64LoopWithin (n + 1) f E = f64LoopWithin n (Flt.div binary64 f (Flt.pow10Lit 308)) (E + 308) := by
  rw [f64LoopWithin, if_neg hk, if_neg hz, if_neg h0]

theorem f64LoopWithin_three {n : Nat} (hn : n ≤ u64Max) (E : Int) : ∃ r, f64LoopWithin 3 (Flt.ofNat binary64 n) E = some r := by
  obtain ⟨m, e, h1, hv, hnear⟩ := ofNat_near hn
  have hη := eta_pos
  have hε := eps_pos
  rw [h1]
  by_cases hA : E.natAbs < 309 ∨ (Flt.fin false m e).isZero = true ∨ E ≥ 0
  · exact f64LoopWithin_now hA
  simp only [not_or] at hA
  obtain ⟨a1, a2, a3⟩ := hA
  rw [f64LoopWithin_next a1 a2 a3]
  have hn0 : (0 : ℚ) ≤ n := Nat.cast_nonneg n
  have hbig : (n : ℚ) ≤ 2 ^ (65 : Int) := by
    have : (n : ℚ) ≤ 18446744073709551615 := by exact_mod_cast hn
    norm_num; linarith
  obtain ⟨m₁, e₁, h2, h3, h4⟩ := div_step (α := eps) (b := 0) hn0 (le_refl _) (by linarith) hbig (by norm_num)
    (by rw [add_zero]; exact hnear) (k := 308) (by omega)
  simp only [mul_zero, zero_div, zero_add] at h4
  rw [h2]
  by_cases hB : (E + 308).natAbs < 309 ∨ (Flt.fin false m₁ e₁).isZero = true ∨ E + 308 ≥ 0
  · exact f64LoopWithin_now hB
  simp only [not_or] at hB
  obtain ⟨b1, b2, b3⟩ := hB
  rw [f64LoopWithin_next b1 b2 b3]
  have hη1 : eta ≤ 1 := by unfold eta; exact zpow_le_one_of_nonpos₀ (by norm_num) (by norm_num)
  have hsm : (n : ℚ) / 10 ^ 308 ≤ n := div_le_self hn0 (one_le_pow₀ (by norm_num))
  have hsm0 : 0 ≤ (n : ℚ) / 10 ^ 308 := by positivity
  obtain ⟨m₂, e₂, h5, h6, h7⟩ := div_step (α := eps + 21 / 10 * eps) (b := eta) hsm0 hη.le (by linarith)
    (by linarith) hη1 h4 (k := 308) (by omega)
  rw [h5]
  have hm2 : m₂ = 0 := by
    by_contra hne
    have hm2 : (1 : ℚ) ≤ m₂ := by exact_mod_cast Nat.pos_of_ne_zero hne
    have he2 : (2 : ℚ) ^ (-1074 : Int) ≤ 2 ^ e₂ := zpow_le_zpow_right₀ (by norm_num) h6.2.1
    have h8 : (2 : ℚ) ^ (-1074 : Int) = 2 * eta := by unfold eta; rw [← zpow_one_add₀ (by norm_num)]; rfl
    have h9 : 2 * eta ≤ m₂ * 2 ^ e₂ := by
      rw [← h8]; exact le_trans he2 (le_mul_of_one_le_left (two_zpow_pos _).le hm2)
    have h10 := (abs_le.1 h7).2
    have h11 : (n : ℚ) / 10 ^ 308 / 10 ^ 308 ≤ 2 ^ (65 : Int) / 10 ^ 308 / 10 ^ 308 := by gcongr
    have h12 := le_trans h11 tiny_1
    have h13 := tiny_2
    have h14 : (eps + 21 / 10 * eps + 21 / 10 * eps) ≤ 1 := by unfold eps; norm_num
    have h15 : (0 : ℚ) ≤ n / 10 ^ 308 / 10 ^ 308 := by positivity
    exact tiny_3 h9 h10 h12 h13 h14 h15
  subst hm2
  exact f64LoopWithin_now (.inr (.inl rfl))

end Miniserde
