import Verif.Proof.Rounding

/-!
# Error bounds for the float operations
-/

namespace Miniserde

/-- `y` is the rounding of the nonnegative rational `r`, as far as error bounds are concerned. -/
structure Near (f : Fmt) (r y : ℚ) : Prop where
  nonneg : 0 ≤ y
  err : |y - r| ≤ r * 2 ^ (-(f.prec : Int)) + 2 ^ (f.emin - 1)
  normal : 2 ^ (f.emin + f.prec - 1) ≤ r → |y - r| ≤ r * 2 ^ (-(f.prec : Int))

/-- The outcome of an operation with exact result `±r`. -/
inductive Outcome (f : Fmt) (s : Bool) (r : ℚ) : Flt → Prop
  | inf (h : f.limit ≤ r) : Outcome f s r (.inf s)
  | fin {m : Nat} {e : Int} (hv : (Flt.fin s m e).Valid f) (hl : r < f.limit) (h : Near f r ((m : ℚ) * 2 ^ e)) :
      Outcome f s r (.fin s m e)

theorem Fmt.limit_pos {f : Fmt} : 0 < f.limit := by
  unfold Fmt.limit
  refine mul_pos ?_ (two_zpow_pos _)
  have : (1 : ℚ) ≤ 2 ^ f.prec := one_le_pow₀ (by norm_num)
  linarith

theorem round_outcome {f : Fmt} (hf : f.Ok) (s : Bool) (n d : Nat) (hd : 0 < d) : Outcome f s ((n : ℚ) / d) (Flt.round f s n d) := by
  have hd' : (0 : ℚ) < d := by exact_mod_cast hd
  by_cases hn : n = 0
  · subst hn
    have hr : Flt.round f s 0 d = .fin s 0 f.emin := by simp [Flt.round]
    rw [hr]
    have e : ((0 : Nat) : ℚ) / d = 0 := by simp
    rw [e]
    refine .fin ⟨by positivity, le_refl _, hf.range, .inl rfl⟩ Fmt.limit_pos ⟨by simp, ?_, fun h => by simp⟩
    simp only [Nat.cast_zero, zero_mul, sub_self, abs_zero, zero_add]
    exact (two_zpow_pos _).le
  · rcases round_cases s hf hn hd with ⟨h1, h2⟩ | ⟨m, e, h1, hv, hl, hval, -⟩
    · rw [h1]; exact .inf h2
    · rw [h1]
      have hE := two_zpow_pos (expFor f n d)
      have hnear := (man_near (f := f) (n := n) hd).1
      have hq : (n : ℚ) / d = (n : ℚ) / d / 2 ^ expFor f n d * 2 ^ expFor f n d := by field_simp
      have hr : |(manFor f n d : ℚ) * 2 ^ expFor f n d - (n : ℚ) / d| ≤ 1 / 2 * 2 ^ expFor f n d := by
        calc |(manFor f n d : ℚ) * 2 ^ expFor f n d - (n : ℚ) / d|
            = |(manFor f n d : ℚ) - (n : ℚ) / d / 2 ^ expFor f n d| * 2 ^ expFor f n d := by
              rw [← abs_of_pos hE, ← abs_mul, abs_of_pos hE, sub_mul, ← hq]
          _ ≤ 1 / 2 * 2 ^ expFor f n d := mul_le_mul_of_nonneg_right hnear hE.le
      have hp := hf.prec
      have hnorm : f.emin + f.prec - 1 ≤ Flt.ilog2 n d → 1 / 2 * (2 : ℚ) ^ expFor f n d ≤ (n : ℚ) / d * 2 ^ (-(f.prec : Int)) := by
        intro h
        have e1 : expFor f n d = Flt.ilog2 n d + (1 - (f.prec : Int)) := by unfold expFor; omega
        have h2 := (ilog2_spec hn hd).1
        have e2 : 1 / 2 * (2 : ℚ) ^ (Flt.ilog2 n d + (1 - (f.prec : Int))) = 2 ^ Flt.ilog2 n d * 2 ^ (-(f.prec : Int)) := by
          rw [zpow_add₀ (by norm_num), sub_eq_add_neg, zpow_add₀ (by norm_num)]; norm_num; ring
        rw [e1, e2]
        exact mul_le_mul_of_nonneg_right h2 (two_zpow_pos _).le
      rw [← hval] at hr
      have hr0 : (0 : ℚ) ≤ (n : ℚ) / d := by positivity
      refine .fin hv hl ⟨mul_nonneg (Nat.cast_nonneg _) (two_zpow_pos _).le, ?_, ?_⟩
      · have h3 := two_zpow_pos (f.emin - 1)
        have h4 := mul_nonneg hr0 (two_zpow_pos (-(f.prec : Int))).le
        by_cases h : f.emin + f.prec - 1 ≤ Flt.ilog2 n d
        · have := hnorm h; linarith
        · have e1 : expFor f n d = f.emin := by unfold expFor; omega
          rw [e1] at hr
          have : (2 : ℚ) ^ f.emin = 2 ^ (f.emin - 1) * 2 := by
            rw [← zpow_add_one₀ (by norm_num)]; congr 1; ring
          rw [this] at hr
          linarith
      · intro h
        refine le_trans hr (hnorm ?_)
        have h2 := (ilog2_spec hn hd).2
        have h3 := lt_of_le_of_lt h h2
        have := (zpow_lt_zpow_iff_right₀ (by norm_num : (1 : ℚ) < 2)).1 h3
        omega

theorem mul_scaled (m : Nat) (e : Int) (d : Nat) (hd : 0 < d) :
    ((m * 2 ^ e.toNat : Nat) : ℚ) / ((d * 2 ^ (-e).toNat : Nat) : ℚ) = (m : ℚ) * 2 ^ e / d := by
  have hd' : (0 : ℚ) < d := by exact_mod_cast hd
  push_cast
  rw [zpow_toNat e]
  have h2 : (0 : ℚ) < 2 ^ (-e).toNat := by positivity
  field_simp

theorem mul_outcome {f : Fmt} (hf : f.Ok) (s t : Bool) (m m' : Nat) (e e' : Int) :
    Outcome f (s != t) (((m : ℚ) * 2 ^ e) * (m' * 2 ^ e')) (Flt.mul f (.fin s m e) (.fin t m' e')) := by
  have h := round_outcome hf (s != t) (m * m' * 2 ^ (e + e').toNat) (2 ^ (-(e + e')).toNat) (by positivity)
  have e1 := mul_scaled (m * m') (e + e') 1 (by omega)
  rw [Nat.one_mul] at e1
  rw [e1] at h
  have : (((m * m' : Nat) : ℚ) * 2 ^ (e + e') / ((1 : Nat) : ℚ)) = ((m : ℚ) * 2 ^ e) * (m' * 2 ^ e') := by
    rw [zpow_add₀ (by norm_num)]; push_cast; ring
  rw [this] at h
  exact h

theorem div_outcome {f : Fmt} (hf : f.Ok) (s t : Bool) (m m' : Nat) (e e' : Int) (hm : m' ≠ 0) :
    Outcome f (s != t) (((m : ℚ) * 2 ^ e) / (m' * 2 ^ e')) (Flt.div f (.fin s m e) (.fin t m' e')) := by
  have hm0 : 0 < m' := Nat.pos_of_ne_zero hm
  have h := round_outcome hf (s != t) (m * 2 ^ (e - e').toNat) (m' * 2 ^ (-(e - e')).toNat) (by positivity)
  rw [mul_scaled m (e - e') m' hm0] at h
  have : ((m : ℚ) * 2 ^ (e - e') / m') = ((m : ℚ) * 2 ^ e) / (m' * 2 ^ e') := by
    rw [zpow_sub₀ (by norm_num)]
    have := two_zpow_pos e'
    have : (0 : ℚ) < m' := by exact_mod_cast hm0
    field_simp
  rw [this] at h
  show Outcome f (s != t) _ (if m' = 0 then _ else _)
  rw [if_neg hm]
  exact h

theorem cast_outcome {f : Fmt} (hf : f.Ok) (s : Bool) (m : Nat) (e : Int) :
    Outcome f s ((m : ℚ) * 2 ^ e) (Flt.cast f (.fin s m e)) := by
  have h := round_outcome hf s (m * 2 ^ e.toNat) (2 ^ (-e).toNat) (by positivity)
  have e1 := mul_scaled m e 1 (by omega)
  rw [Nat.one_mul] at e1
  rw [e1, Nat.cast_one, div_one] at h
  exact h

theorem ofNat_outcome {f : Fmt} (hf : f.Ok) (n : Nat) : Outcome f false (n : ℚ) (Flt.ofNat f n) := by
  have h := round_outcome hf false n 1 (by omega)
  rwa [Nat.cast_one, div_one] at h

end Miniserde
