import Mathlib.Tactic.Linarith
import Mathlib.Tactic.NormNum
import Mathlib.Tactic.Positivity
import Mathlib.Tactic.FieldSimp
import Mathlib.Tactic.Ring
import Mathlib.Algebra.Order.Ring.Abs
import Verif.Spec.FloatVal

/-!
# The software rounding is IEEE-754 rounding to nearest, ties to even
-/

namespace Miniserde

theorem two_zpow_pos (e : Int) : (0 : ℚ) < 2 ^ e := by positivity

theorem zpow_toNat (e : Int) : (2 : ℚ) ^ e.toNat = 2 ^ e * 2 ^ (-e).toNat := by
  rcases Int.le_total 0 e with h | h
  · have h1 : (-e).toNat = 0 := by omega
    rw [h1, pow_zero, mul_one, ← zpow_natCast, Int.toNat_of_nonneg h]
  · have h1 : e.toNat = 0 := by omega
    rw [h1, pow_zero]
    have h2 : ((-e).toNat : Int) = -e := Int.toNat_of_nonneg (by omega)
    rw [← zpow_natCast, h2, ← zpow_add₀ (by norm_num)]
    simp

/-- Scaling by a power of two in numerator or denominator. -/
theorem scaled_div (n d : Nat) (hd : 0 < d) (e : Int) :
    ((n * 2 ^ (-e).toNat : Nat) : ℚ) / ((d * 2 ^ e.toNat : Nat) : ℚ) = (n : ℚ) / d / 2 ^ e := by
  have hd' : (0 : ℚ) < d := by exact_mod_cast hd
  push_cast
  rw [zpow_toNat e]
  have h1 := two_zpow_pos e
  have h2 : (0 : ℚ) < 2 ^ (-e).toNat := by positivity
  field_simp

theorem nat_log2 {n : Nat} (h : n ≠ 0) : (2 : ℚ) ^ ((Nat.log2 n : Nat) : Int) ≤ n ∧ (n : ℚ) < 2 ^ ((Nat.log2 n : Int) + 1) := by
  have h1 : 2 ^ Nat.log2 n ≤ n := Nat.log2_self_le h
  have h2 : n < 2 ^ (Nat.log2 n + 1) := Nat.lt_log2_self
  constructor
  · rw [zpow_natCast]; exact_mod_cast h1
  · have : ((Nat.log2 n : Int) + 1) = ((Nat.log2 n + 1 : Nat) : Int) := by push_cast; ring
    rw [this, zpow_natCast]; exact_mod_cast h2

/-- `ilog2 n d` is the floor of the binary logarithm of `n/d`. -/
theorem ilog2_spec {n d : Nat} (hn : n ≠ 0) (hd : 0 < d) : (2 : ℚ) ^ Flt.ilog2 n d ≤ (n : ℚ) / d ∧ (n : ℚ) / d < 2 ^ (Flt.ilog2 n d + 1) := by
  have hd' : (0 : ℚ) < d := by exact_mod_cast hd
  obtain ⟨a1, a2⟩ := nat_log2 hn
  obtain ⟨b1, b2⟩ := nat_log2 (n := d) (by omega)
  unfold Flt.ilog2
  simp only
  generalize hk : (Nat.log2 n : Int) - (Nat.log2 d : Int) = k
  have hiff : n * 2 ^ (-k).toNat < d * 2 ^ k.toNat ↔ (n : ℚ) / d < 2 ^ k := by
    rw [div_lt_iff₀ hd']
    have : ((n * 2 ^ (-k).toNat : Nat) : ℚ) < ((d * 2 ^ k.toNat : Nat) : ℚ) ↔ (n : ℚ) < 2 ^ k * d := by
      push_cast
      rw [zpow_toNat k]
      have h2 : (0 : ℚ) < 2 ^ (-k).toNat := by positivity
      constructor
      · intro h
        have h' : (n : ℚ) * 2 ^ (-k).toNat < (2 ^ k * d) * 2 ^ (-k).toNat := by linarith
        exact lt_of_mul_lt_mul_right h' h2.le
      · intro h
        have := mul_lt_mul_of_pos_right h h2
        linarith
    rw [← this]; norm_cast
  have low : (2 : ℚ) ^ (k - 1) ≤ (n : ℚ) / d := by
    rw [le_div_iff₀ hd']
    have : (2 : ℚ) ^ (k - 1) * d ≤ 2 ^ (k - 1) * 2 ^ ((Nat.log2 d : Int) + 1) := mul_le_mul_of_nonneg_left b2.le (two_zpow_pos _).le
    refine this.trans ?_
    rw [← zpow_add₀ (by norm_num)]
    have e : k - 1 + ((Nat.log2 d : Int) + 1) = Nat.log2 n := by omega
    rw [e]; exact a1
  have high : (n : ℚ) / d < 2 ^ (k + 1) := by
    rw [div_lt_iff₀ hd']
    have : (2 : ℚ) ^ (k + 1) * 2 ^ ((Nat.log2 d : Nat) : Int) ≤ 2 ^ (k + 1) * d := mul_le_mul_of_nonneg_left b1 (two_zpow_pos _).le
    refine lt_of_lt_of_le ?_ this
    rw [← zpow_add₀ (by norm_num)]
    have e : k + 1 + (Nat.log2 d : Int) = (Nat.log2 n : Int) + 1 := by omega
    rw [e]; exact a2
  split
  · rename_i h
    exact ⟨low, by rw [sub_add_cancel]; exact hiff.1 h⟩
  · rename_i h
    exact ⟨not_lt.1 fun h' => h (hiff.2 h'), high⟩

/-- `roundDiv` is the nearest integer, ties to even. -/
theorem roundDiv_spec (n d : Nat) (hd : 0 < d) :
    |((Flt.roundDiv n d : Nat) : ℚ) - (n : ℚ) / d| ≤ 1 / 2 ∧
    (|((Flt.roundDiv n d : Nat) : ℚ) - (n : ℚ) / d| = 1 / 2 → Flt.roundDiv n d % 2 = 0) := by
  have hd' : (0 : ℚ) < d := by exact_mod_cast hd
  have hdm : (n : ℚ) = d * (n / d : Nat) + (n % d : Nat) := by exact_mod_cast (Nat.div_add_mod n d).symm
  have hr : n % d < d := Nat.mod_lt _ hd
  unfold Flt.roundDiv
  simp only
  generalize n / d = q at *
  generalize n % d = r at *
  have hq : (n : ℚ) / d = q + r / d := by rw [hdm]; field_simp
  rw [hq]
  have hr0 : (0 : ℚ) ≤ (r : ℚ) / d := by positivity
  split
  · rename_i h
    have h' : (r : ℚ) / d < 1 / 2 := by
      rw [div_lt_iff₀ hd']
      have : (2 * r : ℚ) < d := by exact_mod_cast h
      linarith
    have e : |(q : ℚ) - (q + r / d)| = r / d := by
      rw [abs_sub_comm]; simp [abs_of_nonneg hr0]
    rw [e]
    exact ⟨h'.le, fun h => absurd h h'.ne⟩
  · rename_i h
    have hge : 1 / 2 ≤ (r : ℚ) / d := by
      rw [le_div_iff₀ hd']
      have : (d : ℚ) ≤ 2 * r := by exact_mod_cast not_lt.1 h
      linarith
    have hlt1 : (r : ℚ) / d < 1 := by
      rw [div_lt_iff₀ hd']; have : (r : ℚ) < d := by exact_mod_cast hr
      linarith
    have e : |((q + 1 : Nat) : ℚ) - (q + r / d)| = 1 - r / d := by
      push_cast
      rw [show (q : ℚ) + 1 - (q + r / d) = 1 - r / d by ring]
      exact abs_of_nonneg (by linarith)
    split
    · rename_i h2
      rw [e]
      have : 1 / 2 < (r : ℚ) / d := by
        rw [lt_div_iff₀ hd']
        have : (d : ℚ) < 2 * r := by exact_mod_cast h2
        linarith
      exact ⟨by linarith, fun h => by linarith⟩
    · rename_i h2
      have heq : (r : ℚ) / d = 1 / 2 := by
        rw [div_eq_iff hd'.ne']
        have : (2 * r : ℚ) = d := by exact_mod_cast (by omega : 2 * r = d)
        linarith
      split
      · rename_i h3
        have e' : |(q : ℚ) - (q + r / d)| = r / d := by rw [abs_sub_comm]; simp [abs_of_nonneg hr0]
        rw [e', heq]
        exact ⟨le_refl _, fun _ => h3⟩
      · rename_i h3
        rw [e, heq]
        exact ⟨by norm_num, fun _ => by omega⟩

/-- What the proofs need of a format. -/
structure Fmt.Ok (f : Fmt) : Prop where
  prec : 2 ≤ f.prec
  range : f.emin ≤ f.emax

theorem binary64_ok : binary64.Ok := ⟨by decide, by decide⟩
theorem binary32_ok : binary32.Ok := ⟨by decide, by decide⟩

/-- The exponent used for rounding. -/
def expFor (f : Fmt) (n d : Nat) : Int := max f.emin (Flt.ilog2 n d - ((f.prec : Int) - 1))

/-- The mantissa before normalisation. -/
def manFor (f : Fmt) (n d : Nat) : Nat :=
  Flt.roundDiv (n * 2 ^ (-(expFor f n d)).toNat) (d * 2 ^ (expFor f n d).toNat)

theorem round_eq (f : Fmt) (s : Bool) {n d : Nat} (hn : n ≠ 0) :
    Flt.round f s n d =
      if manFor f n d = 2 ^ f.prec then
        (if f.emax < expFor f n d + 1 then .inf s else .fin s (2 ^ (f.prec - 1)) (expFor f n d + 1))
      else (if f.emax < expFor f n d then .inf s else .fin s (manFor f n d) (expFor f n d)) := by
  show (if n = 0 then _ else
    let (m, e) := if manFor f n d = 2 ^ f.prec then (2 ^ (f.prec - 1), expFor f n d + 1) else (manFor f n d, expFor f n d)
    if f.emax < e then Flt.inf s else .fin s m e) = _
  rw [if_neg hn]
  by_cases hm : manFor f n d = 2 ^ f.prec
  · simp only [hm, if_true]
  · simp only [hm, if_false]

section core
variable {f : Fmt} {n d : Nat}

theorem man_near (hd : 0 < d) : |((manFor f n d : Nat) : ℚ) - (n : ℚ) / d / 2 ^ expFor f n d| ≤ 1 / 2 ∧
    (|((manFor f n d : Nat) : ℚ) - (n : ℚ) / d / 2 ^ expFor f n d| = 1 / 2 → manFor f n d % 2 = 0) := by
  have := roundDiv_spec (n * 2 ^ (-(expFor f n d)).toNat) (d * 2 ^ (expFor f n d).toNat) (by positivity)
  rwa [scaled_div n d hd] at this

theorem scaled_lt (hn : n ≠ 0) (hd : 0 < d) : (n : ℚ) / d / 2 ^ expFor f n d < 2 ^ f.prec := by
  rw [div_lt_iff₀ (two_zpow_pos _)]
  refine lt_of_lt_of_le (ilog2_spec hn hd).2 ?_
  rw [← zpow_natCast, ← zpow_add₀ (by norm_num)]
  refine zpow_le_zpow_right₀ (by norm_num) ?_
  have : Flt.ilog2 n d - ((f.prec : Int) - 1) ≤ expFor f n d := le_max_right _ _
  omega

theorem scaled_ge (hn : n ≠ 0) (hd : 0 < d) (h : f.emin < expFor f n d) (hp : 1 ≤ f.prec) :
    (2 : ℚ) ^ (f.prec - 1) ≤ (n : ℚ) / d / 2 ^ expFor f n d := by
  rw [le_div_iff₀ (two_zpow_pos _)]
  refine le_trans ?_ (ilog2_spec hn hd).1
  rw [← zpow_natCast, ← zpow_add₀ (by norm_num)]
  refine zpow_le_zpow_right₀ (by norm_num) ?_
  have : expFor f n d = Flt.ilog2 n d - ((f.prec : Int) - 1) := by
    unfold expFor at h ⊢
    rcases le_total f.emin (Flt.ilog2 n d - ((f.prec : Int) - 1)) with h' | h'
    · exact max_eq_right h'
    · rw [max_eq_left h'] at h; exact absurd h (lt_irrefl _)
  omega

theorem emin_le_exp : f.emin ≤ expFor f n d := le_max_left _ _

/-- The mantissa is at most `2^prec`. -/
theorem man_le (hn : n ≠ 0) (hd : 0 < d) : manFor f n d ≤ 2 ^ f.prec := by
  have h1 := (abs_le.1 (man_near (f := f) (n := n) hd).1).2
  have h2 := scaled_lt (f := f) hn hd
  by_contra h
  have h3 : (2 : ℚ) ^ f.prec + 1 ≤ manFor f n d := by exact_mod_cast not_le.1 h
  linarith

theorem man_ge (hn : n ≠ 0) (hd : 0 < d) (hp : 1 ≤ f.prec) : expFor f n d = f.emin ∨ 2 ^ (f.prec - 1) ≤ manFor f n d := by
  rcases eq_or_lt_of_le (emin_le_exp (f := f) (n := n) (d := d)) with h | h
  · exact .inl h.symm
  · right
    have h1 := (abs_le.1 (man_near (f := f) (n := n) hd).1).1
    have h2 := scaled_ge (f := f) hn hd h hp
    by_contra h'
    have h3 : ((manFor f n d : Nat) : ℚ) + 1 ≤ 2 ^ (f.prec - 1) := by exact_mod_cast not_le.1 h'
    linarith

/-- Integers are at least as far from the quotient as the mantissa. -/
theorem man_nearest (hd : 0 < d) (k : Int) :
    |((manFor f n d : Nat) : ℚ) - (n : ℚ) / d / 2 ^ expFor f n d| ≤ |(k : ℚ) - (n : ℚ) / d / 2 ^ expFor f n d| ∧
    ((k : ℚ) ≠ manFor f n d → |((manFor f n d : Nat) : ℚ) - (n : ℚ) / d / 2 ^ expFor f n d| = |(k : ℚ) - (n : ℚ) / d / 2 ^ expFor f n d| →
      manFor f n d % 2 = 0) := by
  obtain ⟨h1, h2⟩ := man_near (f := f) (n := n) hd
  generalize manFor f n d = m at *
  generalize (n : ℚ) / d / 2 ^ expFor f n d = x at *
  by_cases hk : (k : ℚ) = m
  · rw [hk]; exact ⟨le_refl _, fun h => absurd rfl h⟩
  · have hk' : 1 ≤ |(k : ℚ) - m| := by
      have : (k : Int) - (m : Int) ≠ 0 := fun h => hk (by have : k = (m : Int) := by omega
                                                          rw [this]; norm_cast)
      have := Int.one_le_abs this
      have h3 : ((1 : Int) : ℚ) ≤ ((|k - (m : Int)| : Int) : ℚ) := by exact_mod_cast this
      rw [Int.cast_abs] at h3
      push_cast at h3
      exact h3
    have tri : |(k : ℚ) - m| ≤ |(k : ℚ) - x| + |(m : ℚ) - x| := by
      have := abs_sub_le (k : ℚ) x m
      rw [abs_sub_comm x (m : ℚ)] at this
      exact this
    refine ⟨by linarith, fun _ e => h2 ?_⟩
    apply le_antisymm h1
    rw [← e] at tri
    linarith

/-- The value of the rounded number, up to sign: mantissa and exponent of a finite result. -/
theorem round_cases (s : Bool) (hf : f.Ok) (hn : n ≠ 0) (hd : 0 < d) :
    (Flt.round f s n d = .inf s ∧ f.limit ≤ (n : ℚ) / d) ∨
    ∃ m e, Flt.round f s n d = .fin s m e ∧ (Flt.fin s m e).Valid f ∧ (n : ℚ) / d < f.limit ∧
      (m : ℚ) * 2 ^ e = manFor f n d * 2 ^ expFor f n d ∧ (manFor f n d % 2 = 0 → m % 2 = 0) := by
  have hp := hf.prec
  have hpow : (2 : ℚ) ^ f.prec = 2 * 2 ^ (f.prec - 1) := by
    rw [← pow_succ']; congr 1; omega
  have hnear := man_near (f := f) (n := n) hd
  have hle := man_le (f := f) hn hd
  have hge := man_ge (f := f) hn hd (by omega)
  have hmin := emin_le_exp (f := f) (n := n) (d := d)
  have hE := two_zpow_pos (expFor f n d)
  have hM := two_zpow_pos f.emax
  have hP : (1 : ℚ) ≤ 2 ^ (f.prec - 1) := one_le_pow₀ (by norm_num)
  have hq : (n : ℚ) / d = (n : ℚ) / d / 2 ^ expFor f n d * 2 ^ expFor f n d := by field_simp
  have big : f.emax < expFor f n d → f.limit ≤ (n : ℚ) / d := by
    intro h
    have h1 := scaled_ge (f := f) hn hd (lt_of_le_of_lt hf.range h) (by omega)
    rw [le_div_iff₀ hE] at h1
    refine le_trans ?_ h1
    have h2 : (2 : ℚ) ^ (f.emax + 1) ≤ 2 ^ expFor f n d := zpow_le_zpow_right₀ (by norm_num) (by omega)
    rw [zpow_add_one₀ (by norm_num)] at h2
    unfold Fmt.limit
    rw [hpow]
    nlinarith
  have small : expFor f n d < f.emax → (n : ℚ) / d < f.limit := by
    intro h
    have h1 := scaled_lt (f := f) hn hd
    rw [div_lt_iff₀ hE] at h1
    refine lt_of_lt_of_le h1 ?_
    have h2 : (2 : ℚ) ^ (expFor f n d + 1) ≤ 2 ^ f.emax := zpow_le_zpow_right₀ (by norm_num) (by omega)
    rw [zpow_add_one₀ (by norm_num)] at h2
    unfold Fmt.limit
    rw [hpow]
    nlinarith
  rw [round_eq f s hn]
  by_cases hm : manFor f n d = 2 ^ f.prec
  · rw [if_pos hm]
    by_cases he : f.emax < expFor f n d + 1
    · rw [if_pos he]
      refine .inl ⟨rfl, ?_⟩
      rcases lt_or_eq_of_le (Int.lt_add_one_iff.1 he) with h | h
      · exact big h
      · have h1 := (abs_le.1 hnear.1).2
        rw [hm] at h1
        push_cast at h1
        rw [hq, Fmt.limit, h]
        refine mul_le_mul_of_nonneg_right ?_ hE.le
        linarith
    · rw [if_neg he]
      refine .inr ⟨_, _, rfl, ⟨?_, by omega, by omega, .inr (le_refl _)⟩, small (by omega), ?_, fun _ => ?_⟩
      · exact Nat.pow_lt_pow_right (by norm_num) (by omega)
      · rw [hm]
        push_cast
        rw [hpow, zpow_add_one₀ (by norm_num)]; ring
      · have : 2 ^ (f.prec - 1) = 2 * 2 ^ (f.prec - 2) := by rw [← pow_succ']; congr 1; omega
        omega
  · rw [if_neg hm]
    by_cases he : f.emax < expFor f n d
    · rw [if_pos he]
      exact .inl ⟨rfl, big he⟩
    · rw [if_neg he]
      have hlt : manFor f n d < 2 ^ f.prec := lt_of_le_of_ne hle hm
      refine .inr ⟨_, _, rfl, ⟨hlt, hmin, by omega, hge⟩, ?_, rfl, id⟩
      rcases lt_or_eq_of_le (not_lt.1 he) with h | h
      · exact small h
      · rw [hq, Fmt.limit, ← h]
        refine mul_lt_mul_of_pos_right ?_ hE
        have h1 := (abs_le.1 hnear.1).1
        have h3 : ((manFor f n d : Nat) : ℚ) + 1 ≤ 2 ^ f.prec := by exact_mod_cast hlt
        by_contra hcon
        have h4 : |((manFor f n d : Nat) : ℚ) - (n : ℚ) / d / 2 ^ expFor f n d| = 1 / 2 := by
          apply le_antisymm hnear.1
          rw [abs_sub_comm]
          exact le_trans (by linarith) (le_abs_self _)
        have h5 := hnear.2 h4
        have h6 : (2 : ℚ) ^ f.prec = manFor f n d + 1 := by
          have := (abs_le.1 hnear.1).1
          linarith
        have h7 : 2 ^ f.prec = manFor f n d + 1 := by exact_mod_cast h6
        have : 2 ^ f.prec = 2 * 2 ^ (f.prec - 1) := by rw [← pow_succ']; congr 1; omega
        omega

/-- No number of the format is nearer than the rounded one; on a tie the mantissa is even. -/
theorem man_best (hf : f.Ok) (hn : n ≠ 0) (hd : 0 < d) {q : ℚ} (hq : f.Has q) :
    |(manFor f n d * 2 ^ expFor f n d : ℚ) - (n : ℚ) / d| ≤ |q - (n : ℚ) / d| ∧
    (q ≠ manFor f n d * 2 ^ expFor f n d → |(manFor f n d * 2 ^ expFor f n d : ℚ) - (n : ℚ) / d| = |q - (n : ℚ) / d| →
      manFor f n d % 2 = 0) := by
  have hE := two_zpow_pos (expFor f n d)
  have hq' : (n : ℚ) / d = (n : ℚ) / d / 2 ^ expFor f n d * 2 ^ expFor f n d := by field_simp
  have hd' : (0 : ℚ) < d := by exact_mod_cast hd
  have hr0 : (0 : ℚ) ≤ (n : ℚ) / d := by positivity
  -- multiples of `2^e`
  have mult : ∀ k : Int, |(manFor f n d * 2 ^ expFor f n d : ℚ) - (n : ℚ) / d| ≤ |k * 2 ^ expFor f n d - (n : ℚ) / d| ∧
      ((k : ℚ) ≠ manFor f n d → |(manFor f n d * 2 ^ expFor f n d : ℚ) - (n : ℚ) / d| = |k * 2 ^ expFor f n d - (n : ℚ) / d| →
        manFor f n d % 2 = 0) := by
    intro k
    have key : ∀ a : ℚ, |a * 2 ^ expFor f n d - (n : ℚ) / d| = |a - (n : ℚ) / d / 2 ^ expFor f n d| * 2 ^ expFor f n d := by
      intro a
      rw [hq', ← sub_mul, abs_mul, abs_of_pos hE]
      congr 3
      field_simp
    obtain ⟨h1, h2⟩ := man_nearest (f := f) (n := n) hd k
    rw [key, key]
    exact ⟨mul_le_mul_of_nonneg_right h1 hE.le, fun hk e => h2 hk (mul_right_cancel₀ hE.ne' e)⟩
  -- something strictly worse than a multiple
  have worse : ∀ (q : ℚ) (k : Int), |k * 2 ^ expFor f n d - (n : ℚ) / d| < |q - (n : ℚ) / d| →
      |(manFor f n d * 2 ^ expFor f n d : ℚ) - (n : ℚ) / d| ≤ |q - (n : ℚ) / d| ∧
      (q ≠ manFor f n d * 2 ^ expFor f n d → |(manFor f n d * 2 ^ expFor f n d : ℚ) - (n : ℚ) / d| = |q - (n : ℚ) / d| →
        manFor f n d % 2 = 0) := by
    intro q k hk
    have := (mult k).1
    exact ⟨by linarith, fun _ e => by linarith⟩
  obtain ⟨m', e', hm', he1, he2, hcase⟩ := hq
  have hE' := two_zpow_pos e'
  have hy0 : (0 : ℚ) ≤ m' * 2 ^ e' := by positivity
  have hpos : ∀ q, q = (m' : ℚ) * 2 ^ e' → |(manFor f n d * 2 ^ expFor f n d : ℚ) - (n : ℚ) / d| ≤ |q - (n : ℚ) / d| ∧
      (q ≠ manFor f n d * 2 ^ expFor f n d → |(manFor f n d * 2 ^ expFor f n d : ℚ) - (n : ℚ) / d| = |q - (n : ℚ) / d| →
        manFor f n d % 2 = 0) := by
    intro q hq
    rcases le_or_gt (expFor f n d) e' with hle | hlt
    · have hk : q = ((m' * 2 ^ (e' - expFor f n d).toNat : Nat) : Int) * 2 ^ expFor f n d := by
        rw [hq]
        push_cast
        rw [← zpow_natCast (2 : ℚ) (e' - expFor f n d).toNat, Int.toNat_of_nonneg (by omega), mul_assoc, ← zpow_add₀ (by norm_num)]
        congr 2; omega
      obtain ⟨h1, h2⟩ := mult ((m' * 2 ^ (e' - expFor f n d).toNat : Nat) : Int)
      rw [hk]
      refine ⟨h1, fun hne e => h2 (fun h => hne ?_) e⟩
      rw [h]
    · have hlow := scaled_ge (f := f) hn hd (lt_of_le_of_lt he1 hlt) (by have := hf.prec; omega)
      rw [le_div_iff₀ hE] at hlow
      have hqlt : q < 2 ^ (f.prec - 1) * 2 ^ expFor f n d := by
        rw [hq]
        have h1 : (m' : ℚ) < 2 ^ f.prec := by exact_mod_cast hm'
        have h2 : (2 : ℚ) ^ (e' + 1) ≤ 2 ^ expFor f n d := zpow_le_zpow_right₀ (by norm_num) (by omega)
        rw [zpow_add_one₀ (by norm_num)] at h2
        have h3 : (2 : ℚ) ^ f.prec = 2 * 2 ^ (f.prec - 1) := by rw [← pow_succ']; congr 1; have := hf.prec; omega
        have h4 : (0 : ℚ) < 2 ^ (f.prec - 1) := by positivity
        calc (m' : ℚ) * 2 ^ e' < 2 ^ f.prec * 2 ^ e' := mul_lt_mul_of_pos_right h1 hE'
          _ = 2 ^ (f.prec - 1) * (2 ^ e' * 2) := by rw [h3]; ring
          _ ≤ _ := mul_le_mul_of_nonneg_left h2 h4.le
      refine worse q ((2 ^ (f.prec - 1) : Nat) : Int) ?_
      push_cast
      rw [abs_of_nonpos (by linarith), abs_of_nonpos (by linarith)]
      linarith
  rcases hcase with hcase | hcase
  · exact hpos q hcase
  · rcases eq_or_lt_of_le hy0 with h0 | h0
    · exact hpos q (by rw [hcase, ← h0, neg_zero])
    · refine worse q 0 ?_
      rw [hcase]
      have e1 : |((0 : Int) : ℚ) * 2 ^ expFor f n d - (n : ℚ) / d| = (n : ℚ) / d := by
        rw [Int.cast_zero, zero_mul, zero_sub, abs_neg, abs_of_nonneg hr0]
      have e2 : |-((m' : ℚ) * 2 ^ e') - (n : ℚ) / d| = m' * 2 ^ e' + (n : ℚ) / d := by
        rw [show -((m' : ℚ) * 2 ^ e') - (n : ℚ) / d = -(m' * 2 ^ e' + (n : ℚ) / d) by ring, abs_neg]
        exact abs_of_nonneg (by linarith)
      rw [e1, e2]; linarith

end core

theorem Has.neg {f : Fmt} {q : ℚ} (h : f.Has q) : f.Has (-q) := by
  obtain ⟨m, e, h1, h2, h3, h4⟩ := h
  refine ⟨m, e, h1, h2, h3, ?_⟩
  rcases h4 with rfl | rfl
  · exact .inr rfl
  · exact .inl (neg_neg _)

/-- The rational `±n/d`. -/
def signed (s : Bool) (n d : Nat) : ℚ := (if s then -1 else 1) * ((n : ℚ) / d)

/-- `round` is IEEE-754 rounding to nearest, ties to even. -/
theorem round_correct {f : Fmt} (hf : f.Ok) (s : Bool) (n d : Nat) (hd : 0 < d) : RoundsTo f (signed s n d) (Flt.round f s n d) := by
  have hd' : (0 : ℚ) < d := by exact_mod_cast hd
  by_cases hn : n = 0
  · subst hn
    have e : signed s 0 d = 0 := by simp [signed]
    have hr : Flt.round f s 0 d = .fin s 0 f.emin := by simp [Flt.round]
    rw [e, hr]
    have hl : (0 : ℚ) < f.limit := by
      unfold Fmt.limit
      refine mul_pos ?_ (two_zpow_pos _)
      have : (1 : ℚ) ≤ 2 ^ f.prec := one_le_pow₀ (by norm_num)
      linarith
    refine .fin ⟨by positivity, le_refl _, hf.range, .inl rfl⟩ (by simpa using hl) (fun q _ => ?_) (fun q _ _ _ => rfl) (fun h => by simp at h)
      (fun h => by simp at h)
    simp [Flt.val]
  · have hn' : (0 : ℚ) < n := by exact_mod_cast Nat.pos_of_ne_zero hn
    have hpos : (0 : ℚ) < (n : ℚ) / d := by positivity
    have habs : |signed s n d| = (n : ℚ) / d := by
      unfold signed; cases s <;> simp [abs_of_pos hpos]
    have hs1 : 0 < signed s n d → s = false := by
      unfold signed; cases s
      · intro _; rfl
      · intro h; simp only [if_true] at h; linarith
    have hs2 : signed s n d < 0 → s = true := by
      unfold signed; cases s
      · intro h; simp only [Bool.false_eq_true, if_false] at h; linarith
      · intro _; rfl
    rcases round_cases s hf hn hd with ⟨h1, h2⟩ | ⟨m, e, h1, hv, hl, hval, hev⟩
    · rw [h1]
      exact .inf (by rw [habs]; exact h2) hs1 hs2
    · rw [h1]
      have hval' : (Flt.fin s m e).val = (if s then -1 else 1) * ((manFor f n d : ℚ) * 2 ^ expFor f n d) := by
        simp only [Flt.val, hval]
      have key : ∀ q, |(Flt.fin s m e).val - signed s n d| = |(manFor f n d * 2 ^ expFor f n d : ℚ) - (n : ℚ) / d| ∧
          |q - signed s n d| = |(if s then -q else q) - (n : ℚ) / d| := by
        intro q
        rw [hval']
        unfold signed
        cases s
        · simp
        · simp only [if_true]
          constructor
          · rw [← abs_neg]; congr 1; ring
          · rw [← abs_neg]; congr 1; ring
      have hhas : ∀ q, f.Has q → f.Has (if s then -q else q) := by
        intro q h; cases s
        · exact h
        · exact Has.neg h
      refine .fin hv (by rw [habs]; exact hl) (fun q hq => ?_) (fun q hq hne he => ?_) hs1 hs2
      · rw [(key q).1, (key q).2]
        exact (man_best hf hn hd (hhas q hq)).1
      · rw [(key q).1, (key q).2] at he
        refine hev ((man_best hf hn hd (hhas q hq)).2 (fun h => hne ?_) he)
        rw [hval']
        cases s
        · simpa using h
        · simp only [if_true] at h ⊢
          linarith

end Miniserde
