import Verif.Proof.FloatShort

/-!
# Rounding back: a number close to a number of the format rounds to it
-/

namespace Miniserde

/-- Error bounds follow from correct rounding. -/
theorem RoundsTo.outcome {f : Fmt} (hf : f.Ok) {r : ℚ} {x : Flt} (h : RoundsTo f r x) : Outcome f x.sign |r| x := by
  have hd : 0 < r.den := r.den_pos
  have hr : signed x.sign r.num.natAbs r.den = r ∨ r = 0 := by
    rcases lt_trichotomy r 0 with h0 | h0 | h0
    · left
      rw [h.sign_eq.2 h0]
      have : ((r.num.natAbs : Nat) : ℚ) = -(r.num : ℚ) := by
        have h1 : r.num < 0 := Rat.num_neg.2 h0
        have h2 : ((r.num.natAbs : Nat) : Int) = -r.num := by omega
        have h3 : (((r.num.natAbs : Nat) : Int) : ℚ) = ((-r.num : Int) : ℚ) := by rw [h2]
        rw [Int.cast_neg] at h3
        exact h3
      unfold signed
      rw [this, neg_div, Rat.num_div_den]; simp
    · exact .inr h0
    · left
      rw [h.sign_eq.1 h0]
      have : ((r.num.natAbs : Nat) : ℚ) = (r.num : ℚ) := by
        have h1 : 0 < r.num := Rat.num_pos.2 h0
        have h2 : ((r.num.natAbs : Nat) : Int) = r.num := by omega
        have h3 : (((r.num.natAbs : Nat) : Int) : ℚ) = (r.num : ℚ) := by rw [h2]
        exact h3
      unfold signed
      rw [this, Rat.num_div_den]; simp
  rcases hr with hr | rfl
  · have habs : ((r.num.natAbs : Nat) : ℚ) / r.den = |r| := by
      conv_rhs => rw [← hr]
      unfold signed
      have h0 : (0 : ℚ) ≤ ((r.num.natAbs : Nat) : ℚ) / r.den := by positivity
      cases x.sign <;> simp only [Bool.false_eq_true, if_false, if_true, one_mul, neg_mul, abs_neg] <;> rw [abs_of_nonneg h0]
    have h1 := round_correct hf x.sign r.num.natAbs r.den hd
    have h2 := round_outcome hf x.sign r.num.natAbs r.den hd
    rw [hr] at h1
    rw [habs] at h2
    have hsig : (Flt.round f x.sign r.num.natAbs r.den).sign = x.sign := by
      generalize Flt.round f x.sign r.num.natAbs r.den = y at h2
      cases h2 <;> rfl
    have := h.unique hf h1 (fun _ => hsig.symm)
    rw [← this] at h2
    exact h2
  · have h1 := round_correct hf x.sign 0 1 (by omega)
    have h2 := round_outcome hf x.sign 0 1 (by omega)
    have e1 : signed x.sign 0 1 = 0 := by simp [signed]
    rw [e1] at h1
    have e2 : ((0 : Nat) : ℚ) / ((1 : Nat) : ℚ) = |0| := by simp
    rw [e2] at h2
    have hsig : (Flt.round f x.sign 0 1).sign = x.sign := by
      generalize Flt.round f x.sign 0 1 = y at h2
      cases h2 <;> rfl
    have := h.unique hf h1 (fun _ => hsig.symm)
    rw [← this] at h2
    exact h2

/-- Different numbers of the format are apart. -/
theorem apart {f : Fmt} (hf : f.Ok) {s : Bool} {m : Nat} {e : Int} (hv : (Flt.fin s m e).Valid f) {q : ℚ} (hq : f.Has q)
    (hne : q ≠ (Flt.fin s m e).val) : (2 : ℚ) ^ (e - 1) ≤ |q - (Flt.fin s m e).val| := by
  obtain ⟨m', e', h1, h2, h3, h4⟩ := hq
  have hp := hf.prec
  have he1 : (2 : ℚ) ^ (e - 1) * 2 = 2 ^ e := by rw [← zpow_add_one₀ (by norm_num)]; congr 1; ring
  have hpos := two_zpow_pos (e - 1)
  by_cases hlt : e' < e
  · -- the other number is smaller
    have hm : 2 ^ (f.prec - 1) ≤ m := by
      rcases hv.2.2.2 with h | h
      · omega
      · exact h
    have hm' : (2 : ℚ) ^ (f.prec - 1) ≤ m := by exact_mod_cast hm
    have h5 : (2 : ℚ) ^ f.prec = 2 ^ (f.prec - 1) * 2 := by rw [← pow_succ]; congr 1; omega
    have h6 : (m' : ℚ) + 1 ≤ 2 ^ f.prec := by exact_mod_cast h1
    have h7 : (2 : ℚ) ^ e' ≤ 2 ^ (e - 1) := zpow_le_zpow_right₀ (by norm_num) (by omega)
    have h8 : (m' : ℚ) * 2 ^ e' ≤ m' * 2 ^ (e - 1) := mul_le_mul_of_nonneg_left h7 (Nat.cast_nonneg _)
    have h9 : (m' : ℚ) * 2 ^ (e - 1) ≤ (2 ^ f.prec - 1) * 2 ^ (e - 1) := mul_le_mul_of_nonneg_right (by linarith) hpos.le
    have h10 : (2 : ℚ) ^ (f.prec - 1) * 2 ^ e ≤ m * 2 ^ e := mul_le_mul_of_nonneg_right hm' (two_zpow_pos _).le
    have hq' : |q| = (m' : ℚ) * 2 ^ e' := by
      have h : (0 : ℚ) ≤ (m' : ℚ) * 2 ^ e' := mul_nonneg (Nat.cast_nonneg _) (two_zpow_pos _).le
      rcases h4 with rfl | rfl
      · exact abs_of_nonneg h
      · rw [abs_neg]; exact abs_of_nonneg h
    have h11 := abs_sub_abs_le_abs_sub (Flt.fin s m e).val q
    rw [Flt.val_abs, hq', abs_sub_comm] at h11
    have h12 : (2 : ℚ) ^ (f.prec - 1) * 2 ^ e = 2 ^ f.prec * 2 ^ (e - 1) := by rw [h5, ← he1]; ring
    nlinarith
  · -- both are multiples of `2^e`
    obtain ⟨k, hk⟩ : ∃ k : Nat, e' = e + k := ⟨(e' - e).toNat, by omega⟩
    have hm : ∃ z : Int, q - (Flt.fin s m e).val = z * 2 ^ e := by
      have hqz : ∃ z : Int, q = z * 2 ^ e := by
        rcases h4 with rfl | rfl
        · refine ⟨m' * 2 ^ k, ?_⟩
          rw [hk, zpow_add₀ (by norm_num), zpow_natCast]; push_cast; ring
        · refine ⟨-(m' * 2 ^ k), ?_⟩
          rw [hk, zpow_add₀ (by norm_num), zpow_natCast]; push_cast; ring
      obtain ⟨z, hz⟩ := hqz
      cases s
      · exact ⟨z - m, by rw [hz, Flt.val_of_sign]; simp; ring⟩
      · exact ⟨z + m, by rw [hz, Flt.val_of_sign]; simp; ring⟩
    obtain ⟨z, hz⟩ := hm
    have hz0 : z ≠ 0 := by
      rintro rfl
      rw [Int.cast_zero, zero_mul, sub_eq_zero] at hz
      exact hne hz
    have h1z : (1 : ℚ) ≤ |(z : ℚ)| := by
      have : (1 : Int) ≤ |z| := Int.one_le_abs hz0
      exact_mod_cast this
    rw [hz, abs_mul, abs_of_pos (two_zpow_pos e)]
    have := two_zpow_pos e
    nlinarith

/-- A number within a quarter of a unit in the last place rounds back. -/
theorem round_back {f : Fmt} (hf : f.Ok) {s : Bool} {m : Nat} {e : Int} (hv : (Flt.fin s m e).Valid f) {q : ℚ}
    (hq : |q - (Flt.fin s m e).val| < 2 ^ (e - 2)) {y : Flt} (hy : RoundsTo f q y) (hs : y.sign = s) : y = .fin s m e := by
  have he1 : (2 : ℚ) ^ (e - 2) * 2 = 2 ^ (e - 1) := by rw [← zpow_add_one₀ (by norm_num)]; congr 1; ring
  have he2 : (2 : ℚ) ^ (e - 1) * 2 = 2 ^ e := by rw [← zpow_add_one₀ (by norm_num)]; congr 1; ring
  have hpos := two_zpow_pos (e - 2)
  cases hy with
  | inf hl =>
    exfalso
    have h1 := abs_sub_abs_le_abs_sub q (Flt.fin s m e).val
    rw [Flt.val_abs] at h1
    unfold Fmt.limit at hl
    have h5 : (m : ℚ) + 1 ≤ 2 ^ f.prec := by exact_mod_cast hv.1
    have h6 : (2 : ℚ) ^ e ≤ 2 ^ f.emax := zpow_le_zpow_right₀ (by norm_num) hv.2.2.1
    have h7 : (2 ^ f.prec - 1 / 2 : ℚ) * 2 ^ e ≤ (2 ^ f.prec - 1 / 2) * 2 ^ f.emax :=
      mul_le_mul_of_nonneg_left h6 (by have : (1 : ℚ) ≤ 2 ^ f.prec := one_le_pow₀ (by norm_num); linarith)
    have h8 : (m : ℚ) * 2 ^ e ≤ (2 ^ f.prec - 1) * 2 ^ e := mul_le_mul_of_nonneg_right (by linarith) (two_zpow_pos _).le
    nlinarith
  | @fin s' m' e' hv' hl nr ti p n =>
    have hs' : s' = s := hs
    subst hs'
    have hval : (Flt.fin s' m' e').val = (Flt.fin s' m e).val := by
      by_contra hne
      have h1 := apart hf hv (valid_has hv') hne
      have h2 := nr _ (valid_has hv)
      have h3 := abs_sub_le (Flt.fin s' m' e').val q (Flt.fin s' m e).val
      rw [abs_sub_comm] at hq
      have h4 : |q - (Flt.fin s' m e).val| < 2 ^ (e - 2) := by rwa [abs_sub_comm]
      linarith
    have : (m' : ℚ) * 2 ^ e' = m * 2 ^ e := by rw [← Flt.val_abs s' m' e', ← Flt.val_abs s' m e, hval]
    obtain ⟨rfl, rfl⟩ := valid_inj (by have := hf.prec; omega) hv' hv this
    rfl

/-- Widening `f32` to `f64` is exact. -/
theorem widen {s : Bool} {m : Nat} {e : Int} (hv : (Flt.fin s m e).Valid binary32) :
    ∃ m' e', Flt.cast binary64 (.fin s m e) = .fin s m' e' ∧ (Flt.fin s m' e').Valid binary64 ∧ (m' : ℚ) * 2 ^ e' = m * 2 ^ e := by
  have hh : binary64.Has (Flt.fin s m e).val := by
    obtain ⟨h1, h2, h3, -⟩ := hv
    have b1 : binary32.emin = -149 := rfl
    have b2 : binary32.emax = 104 := rfl
    refine ⟨m, e, lt_of_lt_of_le h1 (by decide), ?_, ?_, ?_⟩
    · show (-1074 : Int) ≤ e; omega
    · show e ≤ 971; omega
    · cases s
      · left; simp [Flt.val]
      · right; simp [Flt.val]
  have ho := cast_outcome binary64_ok s m e
  have hr := cast_rounds binary64_ok s m e
  obtain ⟨hfin, hval⟩ := hr.exact hh
  generalize Flt.cast binary64 (.fin s m e) = y at *
  cases ho with
  | inf => cases hfin
  | @fin m' e' hv' =>
    refine ⟨m', e', rfl, hv', ?_⟩
    rw [← Flt.val_abs s m' e', ← Flt.val_abs s m e, hval]

end Miniserde
