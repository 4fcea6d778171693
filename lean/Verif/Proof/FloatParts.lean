import Verif.Proof.FloatOps
import Mathlib.Tactic.GCongr

/-!
# The accuracy of `f64_from_parts`
-/

namespace Miniserde

set_option exponentiation.threshold 3000

/-! ## Composing errors -/

theorem rel_mul {a A b B α β : ℚ} (hA : 0 ≤ A) (hB : 0 ≤ B) (h1 : |a - A| ≤ α * A) (h2 : |b - B| ≤ β * B) :
    |a * b - A * B| ≤ (α + β + α * β) * (A * B) := by
  have hb : |b| ≤ (1 + β) * B := by
    have := abs_sub_abs_le_abs_sub b B
    rw [abs_of_nonneg hB] at this
    linarith
  have e : a * b - A * B = (a - A) * b + A * (b - B) := by ring
  have h3 : |(a - A) * b| ≤ α * A * ((1 + β) * B) := by
    rw [abs_mul]; exact mul_le_mul h1 hb (abs_nonneg _) (le_trans (abs_nonneg _) h1)
  have h4 : |A * (b - B)| ≤ A * (β * B) := by
    rw [abs_mul, abs_of_nonneg hA]; exact mul_le_mul_of_nonneg_left h2 hA
  rw [e]
  calc _ ≤ _ := abs_add_le _ _
    _ ≤ α * A * ((1 + β) * B) + A * (β * B) := add_le_add h3 h4
    _ = _ := by ring

theorem rel_div {a A b B α β : ℚ} (hA : 0 ≤ A) (hB : 0 < B) (hβ : β < 1) (h1 : |a - A| ≤ α * A) (h2 : |b - B| ≤ β * B) :
    |a / b - A / B| ≤ (α + β) / (1 - β) * (A / B) := by
  have hb : (1 - β) * B ≤ b := by linarith [(abs_le.1 h2).1]
  have hβ' : 0 < 1 - β := by linarith
  have hb0 : 0 < b := lt_of_lt_of_le (mul_pos hβ' hB) hb
  have e : a / b - A / B = ((a - A) * B - A * (b - B)) / (b * B) := by field_simp; ring
  have h3 : |(a - A) * B - A * (b - B)| ≤ (α + β) * (A * B) := by
    have h3 : |(a - A) * B| ≤ α * A * B := by
      rw [abs_mul, abs_of_pos hB]; exact mul_le_mul_of_nonneg_right h1 hB.le
    have h4 : |A * (b - B)| ≤ A * (β * B) := by
      rw [abs_mul, abs_of_nonneg hA]; exact mul_le_mul_of_nonneg_left h2 hA
    calc _ ≤ _ := abs_sub _ _
      _ ≤ α * A * B + A * (β * B) := add_le_add h3 h4
      _ = _ := by ring
  have hn : 0 ≤ (α + β) * (A * B) := le_trans (abs_nonneg _) h3
  rw [e, abs_div, abs_of_pos (mul_pos hb0 hB), div_le_iff₀ (mul_pos hb0 hB)]
  refine le_trans h3 ?_
  have e2 : (α + β) / (1 - β) * (A / B) * (b * B) = (α + β) * (A * B) * (b / ((1 - β) * B)) := by field_simp
  rw [e2]
  have : 1 ≤ b / ((1 - β) * B) := by rw [le_div_iff₀ (mul_pos hβ' hB)]; linarith
  exact le_mul_of_one_le_right hn this

theorem rel_trans {x y z γ δ η : ℚ} (hγ : 0 ≤ γ) (h1 : |x - y| ≤ γ * y + η) (h2 : |y - z| ≤ δ * z) :
    |x - z| ≤ (γ + δ + γ * δ) * z + η := by
  have h3 := (abs_le.1 h2).2
  have h4 := abs_sub_le x y z
  have h5 : γ * y ≤ γ * (z + δ * z) := mul_le_mul_of_nonneg_left (by linarith) hγ
  calc |x - z| ≤ |x - y| + |y - z| := h4
    _ ≤ γ * y + η + δ * z := add_le_add h1 h2
    _ ≤ _ := by linarith

/-- Half a unit in the last place of 1. -/
def eps : ℚ := 1 / 9007199254740992

/-- Half the least positive `f64`. -/
def eta : ℚ := 2 ^ (-1075 : Int)

theorem eps_eq : (2 : ℚ) ^ (-((binary64.prec : Nat) : Int)) = eps := by
  unfold eps binary64; norm_num

theorem eps_pos : 0 < eps := by unfold eps; norm_num
theorem eta_pos : 0 < eta := two_zpow_pos _

/-- `Near` for `binary64` with the constants spelled out. -/
theorem Near.bounds {r y : ℚ} (h : Near binary64 r y) : 0 ≤ y ∧ |y - r| ≤ eps * r + eta ∧ (2 ^ (-1022 : Int) ≤ r → |y - r| ≤ eps * r) := by
  obtain ⟨h1, h2, h3⟩ := h
  rw [eps_eq, mul_comm] at h2 h3
  have e1 : binary64.emin - 1 = -1075 := by decide
  have e2 : binary64.emin + binary64.prec - 1 = -1022 := by decide
  rw [e1] at h2; rw [e2] at h3
  exact ⟨h1, h2, h3⟩

theorem min_normal_le : (2 : ℚ) ^ (-1022 : Int) ≤ 1 := zpow_le_one_of_nonpos₀ (by norm_num) (by norm_num)

theorem limit_gt : (10 : ℚ) ^ (308 : Int) * 2 < binary64.limit * 2 := by
  unfold Fmt.limit binary64; norm_num

theorem u64_lt_limit : (2 : ℚ) ^ (66 : Int) < binary64.limit := by
  unfold Fmt.limit binary64; norm_num

/-- `significand as f64`. -/
theorem ofNat_near {n : Nat} (h : n ≤ u64Max) :
    ∃ m e, Flt.ofNat binary64 n = .fin false m e ∧ (Flt.fin false m e).Valid binary64 ∧ |(m : ℚ) * 2 ^ e - n| ≤ eps * n := by
  have hn : (n : ℚ) ≤ 18446744073709551615 := by exact_mod_cast h
  have ho := ofNat_outcome binary64_ok n
  cases hf : Flt.ofNat binary64 n with
  | nan => rw [hf] at ho; cases ho
  | inf s =>
    rw [hf] at ho
    cases ho with
    | inf hl =>
      have := u64_lt_limit
      norm_num at this
      linarith
  | fin s m e =>
    rw [hf] at ho
    cases ho with
    | fin hv hl hnear =>
      refine ⟨m, e, rfl, hv, ?_⟩
      rcases Nat.eq_zero_or_pos n with h0 | h0
      · subst h0
        have : Flt.ofNat binary64 0 = .fin false 0 binary64.emin := rfl
        rw [this] at hf
        simp only [Flt.fin.injEq] at hf
        obtain ⟨-, rfl, -⟩ := hf
        simp
      · refine hnear.bounds.2.2 (le_trans min_normal_le ?_)
        exact_mod_cast h0

/-- The table of powers of ten. -/
theorem pow10_near {k : Nat} (h : k < 309) :
    ∃ p q, Flt.pow10Lit k = .fin false p q ∧ p ≠ 0 ∧ |(p : ℚ) * 2 ^ q - 10 ^ k| ≤ eps * 10 ^ k := by
  have hk : (10 : ℚ) ^ k ≤ 10 ^ 308 := pow_le_pow_right₀ (by norm_num) (by omega)
  have hk1 : (1 : ℚ) ≤ 10 ^ k := one_le_pow₀ (by norm_num)
  have ho := ofNat_outcome binary64_ok (10 ^ k)
  push_cast at ho
  have e : Flt.pow10Lit k = Flt.ofNat binary64 (10 ^ k) := rfl
  rw [e]
  cases hf : Flt.ofNat binary64 (10 ^ k) with
  | nan => rw [hf] at ho; cases ho
  | inf s =>
    rw [hf] at ho
    cases ho with
    | inf hl =>
      have := limit_gt
      have e3 : (10 : ℚ) ^ (308 : Int) = 10 ^ (308 : Nat) := by norm_cast
      rw [e3] at this
      linarith
  | fin s m e =>
    rw [hf] at ho
    cases ho with
    | fin hv hl hnear =>
      have h2 := hnear.bounds.2.2 (le_trans min_normal_le hk1)
      refine ⟨m, e, rfl, ?_, h2⟩
      rintro rfl
      have h3 := (abs_le.1 h2).1
      simp only [Nat.cast_zero, zero_mul, zero_sub] at h3
      have : eps < 1 / 2 := by unfold eps; norm_num
      nlinarith

/-! ## The loop -/

theorem POW10_some {k : Nat} (h : k < 309) : De.POW10 k = some (Flt.pow10Lit k) := by unfold De.POW10; rw [if_pos h]
theorem POW10_none {k : Nat} (h : ¬ k < 309) : De.POW10 k = none := by unfold De.POW10; rw [if_neg h]

theorem round_zero (f : Fmt) (s : Bool) (d : Nat) : Flt.round f s 0 d = .fin s 0 f.emin := by simp [Flt.round]

theorem zero_valid : (Flt.fin false 0 binary64.emin).Valid binary64 := ⟨by decide, le_refl _, by decide, .inl rfl⟩

/-- Zero stays zero. -/
theorem f64Loop_zero {e : Int} (hv : (Flt.fin false 0 e).Valid binary64) (E : Int) :
    ∃ e', De.f64Loop (.fin false 0 e) E = .ok (.fin false 0 e') ∧ (Flt.fin false 0 e').Valid binary64 := by
  rw [De.f64Loop]
  by_cases h : E.natAbs < 309
  · obtain ⟨p, q, hp, hp0, -⟩ := pow10_near h
    rw [POW10_some h]
    simp only
    rw [hp]
    refine ⟨binary64.emin, ?_, zero_valid⟩
    have e1 : Flt.mul binary64 (.fin false 0 e) (.fin false p q) = .fin false 0 binary64.emin := by
      show Flt.round _ _ _ _ = _
      rw [Nat.zero_mul, Nat.zero_mul, round_zero]; rfl
    have e2 : Flt.div binary64 (.fin false 0 e) (.fin false p q) = .fin false 0 binary64.emin := by
      show (if p = 0 then _ else _) = _
      rw [if_neg hp0, Nat.zero_mul, round_zero]; rfl
    rw [e1, e2]
    split <;> rfl
  · rw [POW10_none h]
    exact ⟨e, rfl, hv⟩

/-- Multiplication by a power of ten. -/
theorem f64Loop_mul {m : Nat} {e : Int} {A : ℚ} (hA : 1 ≤ A) (h : |(m : ℚ) * 2 ^ e - A| ≤ eps * A)
    {k : Nat} (hk : k < 309) :
    (De.f64Loop (.fin false m e) k = .err ∧ binary64.limit * (1 - 3 * eps) ≤ A * 10 ^ k) ∨
    ∃ m' e', De.f64Loop (.fin false m e) k = .ok (.fin false m' e') ∧ (Flt.fin false m' e').Valid binary64 ∧
      |(m' : ℚ) * 2 ^ e' - A * 10 ^ k| ≤ 4 * eps * (A * 10 ^ k) := by
  obtain ⟨p, q, hp, hp0, hP⟩ := pow10_near hk
  have hk1 : (1 : ℚ) ≤ 10 ^ k := one_le_pow₀ (by norm_num)
  have hV : 1 ≤ A * 10 ^ k := one_le_mul_of_one_le_of_one_le hA hk1
  have hm := rel_mul (by linarith) (by linarith) h hP
  generalize A * 10 ^ k = V at hm hV ⊢
  have hc : eps + eps + eps * eps ≤ 21 / 10 * eps := by unfold eps; norm_num
  have hm' : |(m : ℚ) * 2 ^ e * (p * 2 ^ q) - V| ≤ 21 / 10 * eps * V := le_trans hm (by nlinarith)
  have he : De.f64Loop (.fin false m e) k =
      if (Flt.mul binary64 (.fin false m e) (.fin false p q)).isInfinite then .err else .ok (Flt.mul binary64 (.fin false m e) (.fin false p q)) := by
    rw [De.f64Loop, Int.natAbs_natCast, POW10_some hk]
    simp only
    rw [if_pos (by omega), hp]
  rw [he]
  have ho := mul_outcome binary64_ok false false m p e q
  cases hf : Flt.mul binary64 (.fin false m e) (.fin false p q) with
  | nan => rw [hf] at ho; cases ho
  | inf s =>
    rw [hf] at ho
    cases ho with
    | inf hl =>
      refine .inl ⟨rfl, ?_⟩
      have h1 := (abs_le.1 hm').2
      have h2 : binary64.limit ≤ V * (1 + 21 / 10 * eps) := by linarith
      have h3 : (1 + 21 / 10 * eps) * (1 - 3 * eps) ≤ 1 := by unfold eps; norm_num
      have h4 : 0 ≤ 1 - 3 * eps := by unfold eps; norm_num
      calc _ ≤ V * (1 + 21 / 10 * eps) * (1 - 3 * eps) := mul_le_mul_of_nonneg_right h2 h4
        _ = V * ((1 + 21 / 10 * eps) * (1 - 3 * eps)) := by ring
        _ ≤ V * 1 := mul_le_mul_of_nonneg_left h3 (by linarith)
        _ = V := mul_one V
  | fin s m' e' =>
    rw [hf] at ho
    cases ho with
    | fin hv hl hnear =>
      refine .inr ⟨m', e', rfl, hv, ?_⟩
      have h1 := (abs_le.1 hm').1
      have h5 : 21 / 10 * eps ≤ 1 / 2 := by unfold eps; norm_num
      have hmn : (2 : ℚ) ^ (-1022 : Int) ≤ 1 / 2 := by norm_num
      have h2 := hnear.bounds.2.2 (le_trans hmn (by nlinarith))
      have h3 := rel_trans (η := 0) eps_pos.le (by linarith) hm'
      refine le_trans h3 ?_
      have : eps + 21 / 10 * eps + eps * (21 / 10 * eps) ≤ 4 * eps := by unfold eps; norm_num
      nlinarith

/-- A division step by a power of ten, `a` being `A` up to a relative error `α` and an absolute error `b`. -/
theorem div_step {m : Nat} {e : Int} {A α b : ℚ} (hA : 0 ≤ A) (hb : 0 ≤ b) (hα1 : α ≤ 4 * eps)
    (hbig : A ≤ 2 ^ (65 : Int)) (hb1 : b ≤ 1)
    (h : |(m : ℚ) * 2 ^ e - A| ≤ α * A + b) {k : Nat} (hk : k < 309) :
    ∃ m' e', Flt.div binary64 (.fin false m e) (Flt.pow10Lit k) = .fin false m' e' ∧ (Flt.fin false m' e').Valid binary64 ∧
      |(m' : ℚ) * 2 ^ e' - A / 10 ^ k| ≤ (α + 21 / 10 * eps) * (A / 10 ^ k) + (11 / 10 * b / 10 ^ k + eta) := by
  obtain ⟨p, q, hp, hp0, hP⟩ := pow10_near hk
  have hk1 : (1 : ℚ) ≤ 10 ^ k := one_le_pow₀ (by norm_num)
  have hk0 : (0 : ℚ) < 10 ^ k := by positivity
  have ho := div_outcome binary64_ok false false m p e q hp0
  rw [hp]
  have ha0 : (0 : ℚ) ≤ (m : ℚ) * 2 ^ e := mul_nonneg (Nat.cast_nonneg _) (two_zpow_pos _).le
  have hε := eps_pos
  -- the exact quotient
  have hq1 : |(m : ℚ) * 2 ^ e / (p * 2 ^ q) - (m : ℚ) * 2 ^ e / 10 ^ k| ≤ 101 / 100 * eps * ((m : ℚ) * 2 ^ e / 10 ^ k) := by
    have := rel_div (a := (m : ℚ) * 2 ^ e) (α := 0) (β := eps) ha0 hk0 (by unfold eps; norm_num) (by simp) hP
    refine le_trans this ?_
    have : (0 + eps) / (1 - eps) ≤ 101 / 100 * eps := by unfold eps; norm_num
    exact mul_le_mul_of_nonneg_right this (by positivity)
  have hq2 : |(m : ℚ) * 2 ^ e / 10 ^ k - A / 10 ^ k| ≤ α * (A / 10 ^ k) + b / 10 ^ k := by
    rw [← sub_div, abs_div, abs_of_pos hk0]
    have e1 : α * (A / 10 ^ k) + b / 10 ^ k = (α * A + b) / 10 ^ k := by ring
    rw [e1]
    exact div_le_div_of_nonneg_right h hk0.le
  have hV0 : 0 ≤ A / 10 ^ k := by positivity
  have hB0 : 0 ≤ b / 10 ^ k := by positivity
  have hVA : A / 10 ^ k ≤ A := div_le_self hA hk1
  have hBb : b / 10 ^ k ≤ b := div_le_self hb hk1
  have eB : 11 / 10 * b / 10 ^ k = 11 / 10 * (b / 10 ^ k) := by ring
  rw [eB]
  generalize hy : (m : ℚ) * 2 ^ e / 10 ^ k = y at *
  generalize hr : (m : ℚ) * 2 ^ e / (p * 2 ^ q) = r at *
  generalize A / 10 ^ k = V at *
  generalize b / 10 ^ k = B at *
  have hε0 : eps ≤ 1 / 1000000 := by unfold eps; norm_num
  have hsq : eps * eps ≤ 1 / 1000000 * eps := mul_le_mul_of_nonneg_right hε0 hε.le
  have hεV0 : 0 ≤ eps * V := mul_nonneg hε.le hV0
  have hy1 : y ≤ V * (1 + 4 * eps) + B := by
    have := (abs_le.1 hq2).2
    have : α * V ≤ 4 * eps * V := mul_le_mul_of_nonneg_right hα1 hV0
    linarith
  have hrV : |r - V| ≤ (α + 1011 / 1000 * eps) * V + 1001 / 1000 * B := by
    have h1 := abs_sub_le r y V
    have h2 : 101 / 100 * eps * y ≤ 101 / 100 * eps * (V * (1 + 4 * eps) + B) := mul_le_mul_of_nonneg_left hy1 (by linarith)
    have h3 : eps * B ≤ 1 / 1000000 * B := mul_le_mul_of_nonneg_right hε0 hB0
    have h4 : eps * eps * V ≤ 1 / 1000000 * eps * V := mul_le_mul_of_nonneg_right hsq hV0
    linarith
  have hrV2 := (abs_le.1 hrV).2
  have hαV : α * V ≤ 4 * eps * V := mul_le_mul_of_nonneg_right hα1 hV0
  have hεV : eps * V ≤ 1 / 1000000 * V := mul_le_mul_of_nonneg_right hε0 hV0
  have hrlim : r < binary64.limit := by
    have := u64_lt_limit
    norm_num at this hbig
    linarith
  cases hf : Flt.div binary64 (.fin false m e) (.fin false p q) with
  | nan => rw [hf] at ho; cases ho
  | inf s =>
    rw [hf] at ho
    cases ho with
    | inf hl => linarith
  | fin s m' e' =>
    rw [hf] at ho
    cases ho with
    | fin hv hl hnear =>
      refine ⟨m', e', rfl, hv, ?_⟩
      have h2 := hnear.bounds.2.1
      have h3 := abs_sub_le ((m' : ℚ) * 2 ^ e') r V
      have h4 : eps * r ≤ eps * ((1 + 6 * eps) * V + 1001 / 1000 * B) := mul_le_mul_of_nonneg_left (by linarith) hε.le
      have h5 : eps * B ≤ 1 / 1000000 * B := mul_le_mul_of_nonneg_right hε0 hB0
      have h6 : eps * eps * V ≤ 1 / 1000000 * eps * V := mul_le_mul_of_nonneg_right hsq hV0
      linarith

theorem div_pow_split (x : ℚ) (a b : Nat) : x / 10 ^ a / 10 ^ b = x / 10 ^ (a + b) := by
  rw [div_div, ← pow_add]

theorem pow308 : (1000 : ℚ) ≤ 10 ^ 308 := by
  calc (1000 : ℚ) = 10 ^ 3 := by norm_num
    _ ≤ 10 ^ 308 := pow_le_pow_right₀ (by norm_num) (by norm_num)

theorem tiny_1 : (2 : ℚ) ^ (65 : Int) / 10 ^ 308 / 10 ^ 308 ≤ 1 / 10 * eta := by unfold eta; norm_num

theorem tiny_2 : 11 / 10 * eta / 10 ^ 308 ≤ 1 / 10 * eta := by
  have hp := pow308
  have hη := eta_pos
  generalize (10 : ℚ) ^ 308 = P at hp
  rw [div_le_iff₀ (by linarith)]
  nlinarith

theorem tiny_3 {x W Z c : ℚ} (h9 : 2 * eta ≤ x) (h10 : x - W ≤ c * W + (Z + eta)) (h12 : W ≤ 1 / 10 * eta) (h13 : Z ≤ 1 / 10 * eta)
    (h14 : c ≤ 1) (h15 : 0 ≤ W) : False := by
  have := eta_pos
  nlinarith

/-- **Accuracy of `f64_from_parts`** before the sign is applied. -/
theorem f64Loop_near {n : Nat} (hn : n ≤ u64Max) (E : Int) :
    (De.f64Loop (Flt.ofNat binary64 n) E = .err ∧ binary64.limit * (1 - 3 * eps) ≤ n * 10 ^ E) ∨
    ∃ m e, De.f64Loop (Flt.ofNat binary64 n) E = .ok (.fin false m e) ∧ (Flt.fin false m e).Valid binary64 ∧
      |(m : ℚ) * 2 ^ e - n * 10 ^ E| ≤ 11 / 2 * eps * (n * 10 ^ E) + 2 * eta ∧ (E ≤ -617 → m = 0) := by
  obtain ⟨m, e, h1, hv, hnear⟩ := ofNat_near hn
  have hη := eta_pos
  have hε := eps_pos
  rw [h1]
  rcases Nat.eq_zero_or_pos n with rfl | h0
  · have : Flt.ofNat binary64 0 = .fin false 0 binary64.emin := rfl
    rw [this] at h1
    simp only [Flt.fin.injEq] at h1
    obtain ⟨-, rfl, rfl⟩ := h1
    obtain ⟨e', h2, h3⟩ := f64Loop_zero hv E
    refine .inr ⟨0, e', h2, h3, ?_, fun _ => rfl⟩
    simp [hη.le]
  have hn1 : (1 : ℚ) ≤ n := by exact_mod_cast h0
  have hbig : (n : ℚ) ≤ 2 ^ (65 : Int) := by
    have : (n : ℚ) ≤ 18446744073709551615 := by exact_mod_cast hn
    norm_num; linarith
  have hpow : (0 : ℚ) < 10 ^ E := by positivity
  by_cases hE : 0 ≤ E
  · obtain ⟨k, rfl⟩ := Int.eq_ofNat_of_zero_le hE
    rw [zpow_natCast]
    by_cases hk : k < 309
    · rcases f64Loop_mul hn1 hnear hk with h | ⟨m', e', h2, h3, h4⟩
      · exact .inl h
      · refine .inr ⟨m', e', h2, h3, le_trans h4 ?_, fun h => by omega⟩
        have : 0 ≤ eps * ((n : ℚ) * 10 ^ k) := by positivity
        linarith
    · left
      constructor
      · rw [De.f64Loop, Int.natAbs_natCast, POW10_none hk]
        have hm0 : m ≠ 0 := by
          rintro rfl
          have := (abs_le.1 hnear).1
          simp only [Nat.cast_zero, zero_mul, zero_sub] at this
          have : eps < 1 / 2 := by unfold eps; norm_num
          nlinarith
        simp only
        rw [if_neg (by simpa [Flt.isZero] using hm0), dif_pos (by omega)]
      · have h2 : (10 : ℚ) ^ 309 ≤ 10 ^ k := pow_le_pow_right₀ (by norm_num) (by omega)
        have h3 : (10 : ℚ) ^ k ≤ n * 10 ^ k := le_mul_of_one_le_left (by positivity) hn1
        have h4 : binary64.limit * (1 - 3 * eps) ≤ 10 ^ 309 := by unfold Fmt.limit binary64 eps; norm_num
        linarith
  · have step : ∀ (k : Nat), k < 309 → (1 ≤ k) → ∀ m e, De.f64Loop (.fin false m e) (-(k : Int)) = .ok (Flt.div binary64 (.fin false m e) (Flt.pow10Lit k)) := by
      intro k hk hk1 m e
      rw [De.f64Loop, Int.natAbs_neg, Int.natAbs_natCast, POW10_some hk]
      simp only
      rw [if_neg (by omega)]
    obtain ⟨j, hj⟩ : ∃ j : Nat, E = -(j : Int) := ⟨E.natAbs, by omega⟩
    subst hj
    have hj1 : 1 ≤ j := by omega
    have hV : (n : ℚ) * 10 ^ (-(j : Int)) = n / 10 ^ j := by rw [zpow_neg, zpow_natCast]; rfl
    rw [hV]
    right
    by_cases hk : j < 309
    · obtain ⟨m', e', h2, h3, h4⟩ := div_step (α := eps) (b := 0) (by linarith) (le_refl _) (by linarith) hbig (by norm_num)
        (by rw [add_zero]; exact hnear) hk
      refine ⟨m', e', by rw [step j hk hj1, h2], h3, le_trans h4 ?_, fun h => by omega⟩
      have : 0 ≤ eps * ((n : ℚ) / 10 ^ j) := by positivity
      simp only [mul_zero, zero_div, zero_add]
      linarith
    · -- first division by 1e308
      have hm0 : m ≠ 0 := by
        rintro rfl
        have := (abs_le.1 hnear).1
        simp only [Nat.cast_zero, zero_mul, zero_sub] at this
        have : eps < 1 / 2 := by unfold eps; norm_num
        nlinarith
      have unroll : ∀ (j : Nat) m e, ¬ j < 309 → m ≠ 0 → De.f64Loop (.fin false m e) (-(j : Int)) =
          De.f64Loop (Flt.div binary64 (.fin false m e) (Flt.pow10Lit 308)) (-((j - 308 : Nat) : Int)) := by
        intro j m e hk hm
        rw [De.f64Loop, Int.natAbs_neg, Int.natAbs_natCast, POW10_none hk]
        simp only
        rw [if_neg (by simpa [Flt.isZero] using hm), dif_neg (by omega), dif_pos (by omega)]
        have e5 : -(j : Int) + 308 = -((j - 308 : Nat) : Int) := by omega
        rw [e5]
      obtain ⟨m₁, e₁, h2, h3, h4⟩ := div_step (α := eps) (b := 0) (by linarith) (le_refl _) (by linarith) hbig (by norm_num)
        (by rw [add_zero]; exact hnear) (k := 308) (by omega)
      rw [unroll j m e hk hm0, h2]
      simp only [mul_zero, zero_div, zero_add] at h4
      have hη1 : eta ≤ 1 := by unfold eta; exact zpow_le_one_of_nonpos₀ (by norm_num) (by norm_num)
      have hsm : (n : ℚ) / 10 ^ 308 ≤ n := div_le_self (by linarith) (one_le_pow₀ (by norm_num))
      have hsm0 : 0 ≤ (n : ℚ) / 10 ^ 308 := by positivity
      by_cases hk2 : j - 308 < 309
      · obtain ⟨m₂, e₂, h5, h6, h7⟩ := div_step (α := eps + 21 / 10 * eps) (b := eta) hsm0 hη.le (by linarith)
          (by linarith) hη1 h4 (k := j - 308) hk2
        refine ⟨m₂, e₂, by rw [step _ hk2 (by omega), h5], h6, ?_, fun h => by omega⟩
        have e3 : (n : ℚ) / 10 ^ 308 / 10 ^ (j - 308) = n / 10 ^ j := by
          rw [div_pow_split, Nat.add_sub_cancel' (by omega)]
        rw [e3] at h7
        refine le_trans h7 ?_
        have : 0 ≤ eps * ((n : ℚ) / 10 ^ j) := by positivity
        have h8 : 11 / 10 * eta / 10 ^ (j - 308) ≤ 11 / 10 * eta / 10 ^ 1 := by
          apply div_le_div_of_nonneg_left (by linarith) (by norm_num)
          exact pow_le_pow_right₀ (by norm_num) (by omega)
        linarith
      · -- the result underflows to zero
        have hfin : ∃ e', De.f64Loop (.fin false m₁ e₁) (-((j - 308 : Nat) : Int)) = .ok (.fin false 0 e') ∧
            (Flt.fin false 0 e').Valid binary64 := by
          by_cases hm1 : m₁ = 0
          · subst hm1; exact f64Loop_zero h3 _
          · obtain ⟨m₂, e₂, h5, h6, h7⟩ := div_step (α := eps + 21 / 10 * eps) (b := eta) hsm0 hη.le (by linarith)
              (by linarith) hη1 h4 (k := 308) (by omega)
            rw [unroll _ _ _ hk2 hm1, h5]
            have hm2 : m₂ = 0 := by
              by_contra hne
              have hm2 : (1 : ℚ) ≤ m₂ := by exact_mod_cast Nat.pos_of_ne_zero hne
              have he2 : (2 : ℚ) ^ (-1074 : Int) ≤ 2 ^ e₂ := zpow_le_zpow_right₀ (by norm_num) h6.2.1
              have h8 : (2 : ℚ) ^ (-1074 : Int) = 2 * eta := by unfold eta; rw [← zpow_one_add₀ (by norm_num)]; rfl
              have h9 : 2 * eta ≤ m₂ * 2 ^ e₂ := by
                rw [← h8]; exact le_trans he2 (le_mul_of_one_le_left (two_zpow_pos _).le hm2)
              have h10 := (abs_le.1 h7).2
              have h11 : (n : ℚ) / 10 ^ 308 / 10 ^ 308 ≤ 2 ^ (65 : Int) / 10 ^ 308 / 10 ^ 308 := by gcongr
              have h12 := le_trans h11 tiny_1
              have h13 := tiny_2
              have h14 : (eps + 21 / 10 * eps + 21 / 10 * eps) ≤ 1 := by unfold eps; norm_num
              have h15 : (0 : ℚ) ≤ n / 10 ^ 308 / 10 ^ 308 := by positivity
              exact tiny_3 h9 h10 h12 h13 h14 h15
            subst hm2
            exact f64Loop_zero h6 _
        obtain ⟨e', h5, h6⟩ := hfin
        refine ⟨0, e', h5, h6, ?_, fun _ => rfl⟩
        have hV0 : (0 : ℚ) ≤ n / 10 ^ j := by positivity
        simp only [Nat.cast_zero, zero_mul, zero_sub, abs_neg, abs_of_nonneg hV0]
        have h11 : (n : ℚ) / 10 ^ j ≤ 2 ^ (65 : Int) / 10 ^ 617 := by
          apply div_le_div₀ (by norm_num) hbig (by norm_num)
          exact pow_le_pow_right₀ (by norm_num) (by omega)
        have h12 : (2 : ℚ) ^ (65 : Int) / 10 ^ 617 ≤ eta := by unfold eta; norm_num
        have : 0 ≤ 11 / 2 * eps * ((n : ℚ) / 10 ^ j) := by positivity
        linarith

theorem valid_lt {m : Nat} {e : Int} {s : Bool} (h : (Flt.fin s m e).Valid binary64) : (m : ℚ) * 2 ^ e < 2 ^ (1024 : Int) := by
  have h1 : (m : ℚ) < 2 ^ (53 : Int) := by
    have : m < 2 ^ 53 := h.1
    have : (m : ℚ) < ((2 ^ 53 : Nat) : ℚ) := by exact_mod_cast this
    norm_num at this ⊢; exact this
  have h2 : (2 : ℚ) ^ e ≤ 2 ^ (971 : Int) := zpow_le_zpow_right₀ (by norm_num) h.2.2.1
  have h3 := two_zpow_pos e
  have h4 : (2 : ℚ) ^ (1024 : Int) = 2 ^ (53 : Int) * 2 ^ (971 : Int) := by rw [← zpow_add₀ (by norm_num)]; rfl
  rw [h4]
  exact mul_lt_mul h1 h2 h3 (by positivity)

theorem pow_309 : (2 : ℚ) ^ (1024 : Int) < 10 ^ (309 : Int) * (1 / 2) := by norm_num
theorem limit_lt : binary64.limit ≤ (10 : ℚ) ^ (309 : Int) := by unfold Fmt.limit binary64; norm_num
theorem limit_lo : (1 : ℚ) ≤ binary64.limit / 2 := by unfold Fmt.limit binary64; norm_num

/-- Large exponents overflow. -/
theorem f64Loop_big {n : Nat} (hn : n ≤ u64Max) (h0 : n ≠ 0) {E : Int} (hE : 309 ≤ E) :
    De.f64Loop (Flt.ofNat binary64 n) E = .err := by
  rcases f64Loop_near hn E with h | ⟨m, e, -, hv, h, -⟩
  · exact h.1
  · exfalso
    have h1 := (abs_le.1 h).1
    have h2 := valid_lt hv
    have hn1 : (1 : ℚ) ≤ n := by exact_mod_cast Nat.pos_of_ne_zero h0
    have h3 : (10 : ℚ) ^ (309 : Int) ≤ 10 ^ E := zpow_le_zpow_right₀ (by norm_num) hE
    have h4 : (10 : ℚ) ^ E ≤ n * 10 ^ E := le_mul_of_one_le_left (by positivity) hn1
    have h5 := pow_309
    have hη1 : eta ≤ 1 / 1000 := by unfold eta; norm_num
    have h6 : (1 : ℚ) ≤ 10 ^ (309 : Int) := by norm_num
    generalize (n : ℚ) * 10 ^ E = V at *
    generalize (10 : ℚ) ^ (309 : Int) = T at *
    have hε1 : eps ≤ 1 / 1000 := by unfold eps; norm_num
    have : eps * V ≤ 1 / 1000 * V := mul_le_mul_of_nonneg_right hε1 (by linarith)
    linarith

/-- Very small exponents underflow. -/
theorem f64Loop_small {n : Nat} (hn : n ≤ u64Max) {E : Int} (hE : E ≤ -617) :
    ∃ e, De.f64Loop (Flt.ofNat binary64 n) E = .ok (.fin false 0 e) ∧ (Flt.fin false 0 e).Valid binary64 := by
  rcases f64Loop_near hn E with h | ⟨m, e, h1, hv, -, h2⟩
  · exfalso
    have h1 := h.2
    have hn1 : (n : ℚ) ≤ 18446744073709551615 := by exact_mod_cast hn
    have h3 : (10 : ℚ) ^ E ≤ 10 ^ (-617 : Int) := zpow_le_zpow_right₀ (by norm_num) hE
    have h4 : (n : ℚ) * 10 ^ E ≤ 18446744073709551615 * 10 ^ (-617 : Int) := mul_le_mul hn1 h3 (by positivity) (by norm_num)
    have h5 : (18446744073709551615 : ℚ) * 10 ^ (-617 : Int) < 1 / 2 := by norm_num
    have h6 := limit_lo
    have h7 : 1 / 2 ≤ 1 - 3 * eps := by unfold eps; norm_num
    have h8 : binary64.limit * (1 / 2) ≤ binary64.limit * (1 - 3 * eps) := mul_le_mul_of_nonneg_left h7 Fmt.limit_pos.le
    have h9 := lt_of_le_of_lt (le_trans h8 (le_trans h1 h4)) h5
    linarith
  · obtain rfl := h2 hE
    exact ⟨e, h1, hv⟩

end Miniserde
