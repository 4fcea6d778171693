import Verif.Proof.FloatExact

/-!
# Short decimals are correctly rounded
-/

namespace Miniserde

theorem has_nat {n : Nat} (h : n < 2 ^ 53) : binary64.Has (n : ℚ) := ⟨n, 0, h, by decide, by decide, .inl (by simp)⟩

theorem has_pow10 {k : Nat} (h : k ≤ 22) : binary64.Has ((10 : ℚ) ^ k) := by
  refine ⟨5 ^ k, k, ?_, ?_, ?_, .inl ?_⟩
  · exact lt_of_le_of_lt (Nat.pow_le_pow_right (by omega) h) (by decide +kernel)
  · show (-1074 : Int) ≤ k; omega
  · show (k : Int) ≤ 971; omega
  · rw [zpow_natCast]; push_cast; rw [← mul_pow]; norm_num

theorem ofNat_exact {n : Nat} (h : n < 2 ^ 53) : ∃ m e, Flt.ofNat binary64 n = .fin false m e ∧ (m : ℚ) * 2 ^ e = n := by
  obtain ⟨m, e, h1, -, -⟩ := ofNat_near (n := n) (by have : u64Max = 18446744073709551615 := rfl; omega)
  refine ⟨m, e, h1, ?_⟩
  have := (RoundsTo.exact (h1 ▸ ofNat_rounds binary64_ok n) (has_nat h)).2
  rwa [Flt.val_of_sign, if_neg (by simp)] at this

theorem pow10_exact {k : Nat} (h : k ≤ 22) : ∃ p q, Flt.pow10Lit k = .fin false p q ∧ p ≠ 0 ∧ (p : ℚ) * 2 ^ q = 10 ^ k := by
  obtain ⟨p, q, h1, h2, -⟩ := pow10_near (k := k) (by omega)
  refine ⟨p, q, h1, h2, ?_⟩
  have hr : RoundsTo binary64 ((10 : ℚ) ^ k) (Flt.pow10Lit k) := by
    have := ofNat_rounds binary64_ok (10 ^ k)
    push_cast at this
    exact this
  have := (RoundsTo.exact (h1 ▸ hr) (has_pow10 h)).2
  rwa [Flt.val_of_sign, if_neg (by simp)] at this

set_option exponentiation.threshold 3000 in
theorem small_lt_limit {n : Nat} (h : n < 2 ^ 53) {E : Int} (hE : E ≤ 22) : (n : ℚ) * 10 ^ E < binary64.limit := by
  have h1 : (n : ℚ) ≤ 2 ^ (53 : Nat) := by exact_mod_cast h.le
  have h2 : (10 : ℚ) ^ E ≤ 10 ^ (22 : Int) := zpow_le_zpow_right₀ (by norm_num) hE
  have h3 : (n : ℚ) * 10 ^ E ≤ 2 ^ (53 : Nat) * 10 ^ (22 : Int) := mul_le_mul h1 h2 (by positivity) (by positivity)
  refine lt_of_le_of_lt h3 ?_
  unfold Fmt.limit binary64; norm_num

/-- One multiplication or division of exact numbers. -/
theorem f64Loop_short {n : Nat} (hn : n < 2 ^ 53) {E : Int} (h1 : -22 ≤ E) (h2 : E ≤ 22) :
    ∃ m e, De.f64Loop (Flt.ofNat binary64 n) E = .ok (.fin false m e) ∧ RoundsTo binary64 (n * 10 ^ E) (.fin false m e) := by
  obtain ⟨m, e, hm, hmv⟩ := ofNat_exact hn
  obtain ⟨p, q, hp, hp0, hpv⟩ := pow10_exact (k := E.natAbs) (by omega)
  have v1 : (Flt.fin false m e).val = n := by rw [Flt.val_of_sign, if_neg (by simp)]; exact hmv
  have v2 : (Flt.fin false p q).val = 10 ^ E.natAbs := by rw [Flt.val_of_sign, if_neg (by simp)]; exact hpv
  have hlim := small_lt_limit hn h2
  have hr0 : (0 : ℚ) ≤ (n : ℚ) * 10 ^ E := by positivity
  rw [hm, De.f64Loop, POW10_some (by omega)]
  simp only
  rw [hp]
  have fin : ∀ x, RoundsTo binary64 ((n : ℚ) * 10 ^ E) x → ∃ s m e, x = .fin s m e := by
    intro x hx
    cases hx with
    | inf hl => rw [abs_of_nonneg hr0] at hl; exact absurd hl (not_le.2 hlim)
    | fin => exact ⟨_, _, _, rfl⟩
  by_cases hE : E ≥ 0
  · rw [if_pos hE]
    have hx := mul_rounds binary64_ok false false m p e q
    have hsg := mul_outcome binary64_ok false false m p e q
    have e10 : (10 : ℚ) ^ E.natAbs = 10 ^ E := by rw [← zpow_natCast, Int.natCast_natAbs, abs_of_nonneg hE]
    rw [v1, v2, e10] at hx
    obtain ⟨s, m', e', hx'⟩ := fin _ hx
    rw [hx'] at hx hsg ⊢
    have hs : s = false := by cases hsg; rfl
    subst hs
    exact ⟨m', e', rfl, hx⟩
  · rw [if_neg hE]
    have hx := div_rounds binary64_ok false false m p e q hp0
    have hsg := div_outcome binary64_ok false false m p e q hp0
    have e10 : (n : ℚ) / (10 : ℚ) ^ E.natAbs = n * 10 ^ E := by
      have : E = -(E.natAbs : Int) := by omega
      conv_rhs => rw [this]
      rw [zpow_neg, zpow_natCast, div_eq_mul_inv]
    rw [v1, v2, e10] at hx
    obtain ⟨s, m', e', hx'⟩ := fin _ hx
    rw [hx'] at hx hsg ⊢
    have hs : s = false := by cases hsg; rfl
    subst hs
    exact ⟨m', e', rfl, hx⟩

theorem fromParts_short (nn : Bool) {n : Nat} (hn : n < 2 ^ 53) {E : Int} (h1 : -22 ≤ E) (h2 : E ≤ 22) :
    ∃ m e, De.f64FromParts nn n E = .ok (.fin (!nn) m e) ∧
      RoundsTo binary64 ((if nn then 1 else -1) * (n * 10 ^ E)) (.fin (!nn) m e) := by
  obtain ⟨m, e, h, hr⟩ := f64Loop_short hn h1 h2
  refine ⟨m, e, fromParts_of_loop h, ?_⟩
  cases nn
  · have := hr.neg
    simpa [Flt.neg] using this
  · simpa using hr

theorem expValue_eq (nn : Bool) (n : Nat) {st : Int} (h1 : -2147482700 ≤ st) (h2 : st ≤ 0) {xo : Option ExpPart}
    (h3 : -1000 ≤ st + xo.elim 0 ExpPart.value) (h4 : st + xo.elim 0 ExpPart.value ≤ 900) :
    expValue nn n st xo = De.f64FromParts nn n (st + xo.elim 0 ExpPart.value) := by
  cases xo with
  | none => simp only [Option.elim_none, add_zero]; rfl
  | some x =>
    simp only [Option.elim_some] at *
    unfold expValue
    simp only
    have e0 : digitsFrom 0 x.digits = digitsVal x.digits := rfl
    have hfit : digitsVal x.digits ≤ 2147483647 := by
      unfold ExpPart.value at h3 h4
      by_cases hs : x.sign = some true
      · rw [if_pos hs] at h3 h4; omega
      · rw [if_neg hs] at h3 h4; omega
    rw [accum_exact (by rw [e0]; exact hfit), e0]
    simp only [ne_eq, not_true_eq_false, if_false]
    have ev : (if (x.sign != some true) = true then st + (digitsVal x.digits : Int) else st - (digitsVal x.digits : Int)) = st + x.value := by
      unfold ExpPart.value
      by_cases hs : x.sign = some true
      · simp [hs]; ring
      · simp [hs]
    rw [ev]
    have hM : I32_MAX = 2147483647 := rfl
    have hm : I32_MIN = -2147483648 := rfl
    unfold satI32
    rw [if_neg (by omega), if_neg (by omega)]

/-- The power of ten of a literal: written exponent minus number of fraction digits. -/
def NumLit.scale (l : NumLit) : Int := (l.exp.elim 0 ExpPart.value) - ((l.frac.getD []).length : Int)

theorem NumLit.absValue_scale (l : NumLit) : l.absValue = (l.digits : ℚ) * 10 ^ l.scale := rfl

theorem NumLit.value_eq (l : NumLit) : l.value = (if l.minus then -1 else 1) * ((l.digits : ℚ) * 10 ^ l.scale) := rfl

theorem NumLit.digits_int {l : NumLit} (h : l.frac = none) : l.digits = digitsVal l.int := by simp [NumLit.digits, h]

/-- A literal with fraction or exponent whose digits and exponent are small. -/
theorem numEvent_short {l : NumLit} (hi : ¬ l.isInt) (hlen : l.text.length ≤ 2147482700) (hd : l.digits < 2 ^ 53)
    (h1 : -22 ≤ l.scale) (h2 : l.scale ≤ 22) :
    ∃ m e, numEvent l = .ok (.float (.fin l.minus m e)) ∧ RoundsTo binary64 l.value (.fin l.minus m e) := by
  obtain ⟨he, -, -⟩ := numEvent_float_ok hi (by omega)
  have hU : u64Max = 18446744073709551615 := rfl
  rw [sigExp_exact (by omega)] at he
  have hlen2 : (l.frac.getD []).length ≤ 2147482700 := by
    unfold NumLit.text at hlen
    simp only [List.length_append] at hlen
    cases hf : l.frac with
    | none => simp
    | some fs => rw [hf] at hlen; simp only [List.length_cons, Option.getD_some] at hlen ⊢; omega
  have hfl : l.fracLen = (l.frac.getD []).length := rfl
  have hs : -(l.fracLen : Int) + l.exp.elim 0 ExpPart.value = l.scale := by unfold NumLit.scale; rw [hfl]; ring
  rw [expValue_eq _ _ (by omega) (by omega) (by rw [hs]; omega) (by rw [hs]; omega), hs] at he
  obtain ⟨m, e, h, hr⟩ := fromParts_short (!l.minus) hd h1 h2
  rw [h, Bool.not_not] at he
  refine ⟨m, e, he, ?_⟩
  rw [NumLit.value_eq]
  rw [Bool.not_not] at hr
  cases hm : l.minus <;> rw [hm] at hr <;> simpa using hr

end Miniserde
