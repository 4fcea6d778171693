import Verif.Proof.FloatParts
import Verif.Proof.IntVal

/-!
# From number literals to `significand * 10^exponent`
-/

namespace Miniserde

set_option exponentiation.threshold 3000

theorem digitsFrom_append (acc : Nat) (as bs : Bytes) : digitsFrom acc (as ++ bs) = digitsFrom (digitsFrom acc as) bs := by
  unfold digitsFrom; rw [List.foldl_append]

theorem digitsVal_app (as bs : Bytes) : digitsVal (as ++ bs) = digitsFrom (digitsVal as) bs := digitsFrom_append 0 as bs

theorem digit_le {c : UInt8} (h : IsDigit c) : c.toNat - 48 ≤ 9 := by
  have := h.2; rw [UInt8.le_iff_toNat_le] at this
  have e : (0x39 : UInt8).toNat = 57 := rfl
  omega

theorem digitsFrom_lt {ds : Bytes} (hd : ∀ c ∈ ds, IsDigit c) (acc : Nat) : digitsFrom acc ds < (acc + 1) * 10 ^ ds.length := by
  induction ds generalizing acc with
  | nil => simp [digitsFrom]
  | cons c ds ih =>
    have hc := digit_le (hd c List.mem_cons_self)
    have := ih (fun x hx => hd x (List.mem_cons_of_mem _ hx)) (acc * 10 + (c.toNat - 48))
    rw [digitsFrom_cons, List.length_cons, Nat.pow_succ]
    refine lt_of_lt_of_le this ?_
    generalize 10 ^ ds.length = P
    nlinarith

theorem digitsVal_lt {ds : Bytes} (hd : ∀ c ∈ ds, IsDigit c) : digitsVal ds < 10 ^ ds.length := by
  simpa [digitsFrom, digitsVal] using digitsFrom_lt hd 0

/-- Accumulation keeps the leading digits. -/
theorem accum_bounds {bound acc : Nat} {ds : Bytes} (hd : ∀ c ∈ ds, IsDigit c) (h : acc ≤ bound) :
    (accum bound acc ds).1 * 10 ^ (accum bound acc ds).2 ≤ digitsFrom acc ds ∧
    digitsFrom acc ds < ((accum bound acc ds).1 + 1) * 10 ^ (accum bound acc ds).2 ∧
    acc * 10 ^ (ds.length - (accum bound acc ds).2) ≤ (accum bound acc ds).1 ∧
    (accum bound acc ds).1 < (acc + 1) * 10 ^ (ds.length - (accum bound acc ds).2) ∧
    ((accum bound acc ds).2 ≠ 0 → bound < (accum bound acc ds).1 * 10 + 10) := by
  induction ds generalizing acc with
  | nil => simp [accum, digitsFrom]
  | cons c ds ih =>
    have hc := digit_le (hd c List.mem_cons_self)
    rw [digitsFrom_cons, accum]
    split
    · rename_i h'
      obtain ⟨h1, h2, h3, h4, h5⟩ := ih (fun x hx => hd x (List.mem_cons_of_mem _ hx)) h'
      refine ⟨h1, h2, ?_, ?_, h5⟩
      · have hl := accum_left_le (bound := bound) (acc := acc * 10 + (c.toNat - 48)) (ds := ds)
        rw [List.length_cons, Nat.succ_sub hl, Nat.pow_succ]
        refine le_trans ?_ h3
        generalize 10 ^ (ds.length - (accum bound (acc * 10 + (c.toNat - 48)) ds).2) = P
        nlinarith
      · have hl := accum_left_le (bound := bound) (acc := acc * 10 + (c.toNat - 48)) (ds := ds)
        rw [List.length_cons, Nat.succ_sub hl, Nat.pow_succ]
        refine lt_of_lt_of_le h4 ?_
        generalize 10 ^ (ds.length - (accum bound (acc * 10 + (c.toNat - 48)) ds).2) = P
        nlinarith
    · rename_i h'
      simp only [List.length_cons, Nat.sub_self, pow_zero, mul_one, le_refl, Nat.lt_succ_self, true_and, ne_eq, Nat.succ_ne_zero,
        not_false_eq_true, forall_const]
      have hlt := digitsVal_lt (fun x hx => hd x (List.mem_cons_of_mem _ hx))
      rw [digitsFrom_eq, Nat.pow_succ]
      generalize 10 ^ ds.length = P at *
      generalize digitsVal ds = D at *
      refine ⟨?_, ?_, by omega⟩
      · nlinarith
      · nlinarith


/-- The significand and exponent the tokenizer reads before the exponent part. -/
def sigExp (l : NumLit) : Nat × Int :=
  let a := accum u64Max 0 l.int
  match l.frac with
  | none => (a.1, a.2)
  | some fs => ((accum u64Max a.1 fs).1, (a.2 : Int) - ((fs.length - (accum u64Max a.1 fs).2 : Nat) : Int))

theorem sigExp_le (l : NumLit) : (sigExp l).1 ≤ u64Max := by
  have h := accum_le (bound := u64Max) (acc := 0) (ds := l.int) (Nat.zero_le _)
  unfold sigExp
  cases l.frac with
  | none => exact h
  | some fs => exact accum_le h

/-- The literal is delivered as an integer. -/
def NumLit.isInt (l : NumLit) : Prop := digitsVal l.int ≤ u64Max ∧ l.frac = none ∧ l.exp = none

theorem accum_zero_iff {ds : Bytes} : (accum u64Max 0 ds).2 = 0 ↔ digitsVal ds ≤ u64Max := by
  have e : digitsFrom 0 ds = digitsVal ds := rfl
  constructor
  · intro h
    by_contra h'
    exact accum_over (bound := u64Max) (acc := 0) (ds := ds) (by rw [e]; omega) (Nat.zero_le _) h
  · intro h
    rw [accum_exact (by rw [e]; exact h)]

/-- A literal that is no integer is evaluated from its significand and exponent, or panics. -/
theorem numEvent_float {l : NumLit} (h : ¬ l.isInt) :
    numEvent l = (expValue (!l.minus) (sigExp l).1 (sigExp l).2 l.exp).map .float ∨ numEvent l = .panic := by
  unfold numEvent
  simp only [accum_zero_iff]
  have h' : ¬ (digitsVal l.int ≤ u64Max ∧ l.frac = none ∧ l.exp = none) := h
  rw [if_neg h']
  unfold i32 sigExp
  by_cases h1 : I32_MIN ≤ ((accum u64Max 0 l.int).2 : Int) ∧ ((accum u64Max 0 l.int).2 : Int) ≤ I32_MAX
  · rw [if_pos h1]
    cases hf : l.frac with
    | none => exact .inl rfl
    | some fs =>
      simp only [Res.bind, fracValue]
      unfold i32
      by_cases h2 : I32_MIN ≤ ((accum u64Max 0 l.int).2 : Int) - ((fs.length - (accum u64Max (accum u64Max 0 l.int).1 fs).2 : Nat) : Int) ∧
          ((accum u64Max 0 l.int).2 : Int) - ((fs.length - (accum u64Max (accum u64Max 0 l.int).1 fs).2 : Nat) : Int) ≤ I32_MAX
      · rw [if_pos h2]; exact .inl rfl
      · rw [if_neg h2]; exact .inr rfl
  · rw [if_neg h1]; exact .inr rfl

theorem numEvent_float_ok {l : NumLit} (h : ¬ l.isInt) (hlen : l.text.length < 2 ^ 31) :
    numEvent l = (expValue (!l.minus) (sigExp l).1 (sigExp l).2 l.exp).map .float ∧
    -(((l.frac.getD []).length : Nat) : Int) ≤ (sigExp l).2 ∧ (sigExp l).2 ≤ (l.int.length : Int) := by
  have hl : l.int.length + (l.frac.getD []).length < 2 ^ 31 := by
    unfold NumLit.text at hlen
    simp only [List.length_append] at hlen
    cases hf : l.frac with
    | none => simp only [Option.getD_none, List.length_nil]; omega
    | some fs => rw [hf] at hlen; simp only [List.length_cons] at hlen; simp only [Option.getD_some]; omega
  have h1 := accum_left_le (bound := u64Max) (acc := 0) (ds := l.int)
  have hM : I32_MAX = 2147483647 := rfl
  have hm : I32_MIN = -2147483648 := rfl
  unfold numEvent
  simp only [accum_zero_iff]
  have h' : ¬ (digitsVal l.int ≤ u64Max ∧ l.frac = none ∧ l.exp = none) := h
  rw [if_neg h', i32_ok (by rw [hM, hm]; omega)]
  unfold sigExp
  cases hf : l.frac with
  | none => exact ⟨rfl, by simp, by simp only; omega⟩
  | some fs =>
    rw [hf] at hl
    simp only [Option.getD_some] at hl ⊢
    have h2 := accum_left_le (bound := u64Max) (acc := (accum u64Max 0 l.int).1) (ds := fs)
    refine ⟨?_, by omega, by omega⟩
    simp only [Res.bind, fracValue]
    rw [i32_ok (by rw [hM, hm]; omega)]

/-- The digits of a literal read as one integer. -/
def NumLit.digits (l : NumLit) : Nat := digitsVal (l.int ++ l.frac.getD [])

/-- The number of digits after the point. -/
def NumLit.fracLen (l : NumLit) : Nat := (l.frac.getD []).length

theorem NumLit.WF.digits {l : NumLit} (h : l.WF) : (∀ c ∈ l.int, IsDigit c) ∧ ∀ c ∈ l.frac.getD [], IsDigit c := by
  refine ⟨h.int_digits.2, ?_⟩
  cases hf : l.frac with
  | none => simp
  | some fs => exact (h.frac_digits fs hf).2

/-- Digits that fit are kept exactly. -/
theorem sigExp_exact {l : NumLit} (h : l.digits ≤ u64Max) : sigExp l = (l.digits, -(l.fracLen : Int)) := by
  have e : ∀ ds, digitsFrom 0 ds = digitsVal ds := fun _ => rfl
  unfold NumLit.digits at h
  have h1 : digitsVal l.int ≤ u64Max := by
    rw [digitsVal_app] at h
    exact le_trans (le_digitsFrom _ _) h
  unfold sigExp NumLit.digits NumLit.fracLen
  rw [accum_exact (by rw [e]; exact h1), e]
  cases hf : l.frac with
  | none => simp
  | some fs =>
    rw [hf] at h
    simp only [Option.getD_some] at h ⊢
    rw [digitsVal_app] at h ⊢
    simp only [accum_exact h, Nat.sub_zero, Nat.cast_zero, zero_sub]

theorem swap_le {a b c k : ℚ} (hk : 0 ≤ k) (h : a * b ≤ c) : a * k * b ≤ c * k := by
  have := mul_le_mul_of_nonneg_right h hk; linarith

theorem swap_ge {a b c k : ℚ} (hk : 0 ≤ k) (h : c ≤ a * b) : c * k ≤ a * k * b := by
  have := mul_le_mul_of_nonneg_right h hk; linarith

/-- The significand and exponent are close to the digits. -/
theorem sigExp_near {l : NumLit} (hl : l.WF) :
    |((sigExp l).1 : ℚ) * 10 ^ (sigExp l).2 - l.digits * 10 ^ (-(l.fracLen : Int))| ≤
      2 ^ (-60 : Int) * (l.digits * 10 ^ (-(l.fracLen : Int))) := by
  obtain ⟨hd1, hd2⟩ := hl.digits
  by_cases hfit : l.digits ≤ u64Max
  · rw [sigExp_exact hfit]
    simp only [sub_self, abs_zero]
    positivity
  · -- a common lower end `s * 10^k` and width `10^k`
    have key : ∃ (s : Nat) (k : Int), u64Max < s * 10 + 10 ∧
        (s : ℚ) * 10 ^ k ≤ (sigExp l).1 * 10 ^ (sigExp l).2 ∧ ((sigExp l).1 : ℚ) * 10 ^ (sigExp l).2 ≤ (s + 1) * 10 ^ k ∧
        (s : ℚ) * 10 ^ k ≤ l.digits * 10 ^ (-(l.fracLen : Int)) ∧ (l.digits : ℚ) * 10 ^ (-(l.fracLen : Int)) ≤ (s + 1) * 10 ^ k := by
      have ten : (10 : ℚ) ≠ 0 := by norm_num
      have e0 : digitsFrom 0 l.int = digitsVal l.int := rfl
      obtain ⟨a1, a2, -, -, a5⟩ := accum_bounds (bound := u64Max) (acc := 0) hd1 (Nat.zero_le _)
      have a0 := accum_le (bound := u64Max) (acc := 0) (ds := l.int) (Nat.zero_le _)
      rw [e0] at a1 a2
      unfold sigExp
      unfold NumLit.digits at hfit ⊢
      unfold NumLit.fracLen
      rw [digitsVal_app] at hfit ⊢
      by_cases hk : (accum u64Max 0 l.int).2 = 0
      · -- the integer part fits, the fraction does not
        have hN := accum_zero_iff.1 hk
        have ea : accum u64Max 0 l.int = (digitsVal l.int, 0) := accum_exact (by rw [e0]; exact hN)
        rw [ea]
        cases hf : l.frac with
        | none => rw [hf] at hfit; exact absurd hN hfit
        | some fs =>
          rw [hf] at hfit hd2
          simp only [Option.getD_some] at hfit hd2 ⊢
          obtain ⟨b1, b2, -, -, b5⟩ := accum_bounds (bound := u64Max) (acc := digitsVal l.int) hd2 hN
          have b0 := accum_left_le (bound := u64Max) (acc := digitsVal l.int) (ds := fs)
          have b3 := accum_over (bound := u64Max) (acc := digitsVal l.int) (ds := fs) (by omega) hN
          generalize accum u64Max (digitsVal l.int) fs = b at *
          refine ⟨b.1, (b.2 : Int) - fs.length, b5 b3, ?_, ?_, ?_, ?_⟩
          · refine le_of_eq ?_; congr 2; push_cast; omega
          · have e3 : ((0 : Nat) : Int) - ((fs.length - b.2 : Nat) : Int) = (b.2 : Int) - fs.length := by omega
            rw [e3]
            exact mul_le_mul_of_nonneg_right (by linarith) (by positivity)
          · rw [sub_eq_add_neg, zpow_add₀ ten, ← mul_assoc, zpow_natCast]
            refine mul_le_mul_of_nonneg_right ?_ (by positivity)
            exact_mod_cast b1
          · rw [sub_eq_add_neg, zpow_add₀ ten, ← mul_assoc, zpow_natCast]
            refine mul_le_mul_of_nonneg_right ?_ (by positivity)
            exact_mod_cast b2.le
      · -- the integer part does not fit
        have a5 := a5 hk
        have hN : (accum u64Max 0 l.int).1 * 10 ^ (accum u64Max 0 l.int).2 * 10 ^ (l.frac.getD []).length ≤
              digitsFrom (digitsVal l.int) (l.frac.getD []) ∧
            digitsFrom (digitsVal l.int) (l.frac.getD []) ≤
              ((accum u64Max 0 l.int).1 + 1) * 10 ^ (accum u64Max 0 l.int).2 * 10 ^ (l.frac.getD []).length := by
          rw [digitsFrom_eq]
          have := digitsVal_lt hd2
          generalize 10 ^ (l.frac.getD []).length = P at *
          constructor
          · nlinarith
          · nlinarith
        have hD1 : ((accum u64Max 0 l.int).1 : ℚ) * 10 ^ ((accum u64Max 0 l.int).2 : Int) ≤
            (digitsFrom (digitsVal l.int) (l.frac.getD []) : ℚ) * 10 ^ (-((l.frac.getD []).length : Int)) := by
          rw [zpow_neg, zpow_natCast, zpow_natCast, ← div_eq_mul_inv, le_div_iff₀ (by positivity)]
          exact_mod_cast hN.1
        have hD2 : (digitsFrom (digitsVal l.int) (l.frac.getD []) : ℚ) * 10 ^ (-((l.frac.getD []).length : Int)) ≤
            ((accum u64Max 0 l.int).1 + 1 : ℚ) * 10 ^ ((accum u64Max 0 l.int).2 : Int) := by
          rw [zpow_neg, zpow_natCast, zpow_natCast, ← div_eq_mul_inv, div_le_iff₀ (by positivity)]
          exact_mod_cast hN.2
        refine ⟨(accum u64Max 0 l.int).1, (accum u64Max 0 l.int).2, a5, ?_, ?_, hD1, hD2⟩
        · cases hf : l.frac with
          | none => exact le_refl _
          | some fs =>
            rw [hf] at hd2
            simp only [Option.getD_some] at hd2 ⊢
            obtain ⟨-, -, b3, b4, -⟩ := accum_bounds (bound := u64Max) hd2 a0
            rw [zpow_sub₀ ten, zpow_natCast, zpow_natCast, mul_div_assoc', le_div_iff₀ (by positivity)]
            have : ((accum u64Max 0 l.int).1 : ℚ) * 10 ^ (fs.length - (accum u64Max (accum u64Max 0 l.int).1 fs).2) ≤
              (accum u64Max (accum u64Max 0 l.int).1 fs).1 := by exact_mod_cast b3
            have hp : (0 : ℚ) ≤ 10 ^ (accum u64Max 0 l.int).2 := by positivity
            exact swap_le hp this
        · cases hf : l.frac with
          | none => exact mul_le_mul_of_nonneg_right (by linarith) (by positivity)
          | some fs =>
            rw [hf] at hd2
            simp only [Option.getD_some] at hd2 ⊢
            obtain ⟨-, -, b3, b4, -⟩ := accum_bounds (bound := u64Max) hd2 a0
            rw [zpow_sub₀ ten, zpow_natCast, zpow_natCast, mul_div_assoc', div_le_iff₀ (by positivity)]
            have : ((accum u64Max (accum u64Max 0 l.int).1 fs).1 : ℚ) ≤
              ((accum u64Max 0 l.int).1 + 1) * 10 ^ (fs.length - (accum u64Max (accum u64Max 0 l.int).1 fs).2) := by exact_mod_cast b4.le
            have hp : (0 : ℚ) ≤ 10 ^ (accum u64Max 0 l.int).2 := by positivity
            exact swap_ge hp this
    obtain ⟨s, k, hs, h1, h2, h3, h4⟩ := key
    generalize ((sigExp l).1 : ℚ) * 10 ^ (sigExp l).2 = A at *
    generalize (l.digits : ℚ) * 10 ^ (-(l.fracLen : Int)) = D at *
    have hs' : (1152921504606846976 : ℚ) ≤ s := by
      have : u64Max = 18446744073709551615 := rfl
      have : 1152921504606846976 ≤ s := by omega
      exact_mod_cast this
    have hw : (0 : ℚ) < 10 ^ k := by positivity
    have e60 : (2 : ℚ) ^ (-60 : Int) = 1 / 1152921504606846976 := by norm_num
    rw [e60]
    have h5 : |A - D| ≤ 10 ^ k := by rw [abs_le]; constructor <;> linarith
    have h6 : (1152921504606846976 : ℚ) * 10 ^ k ≤ s * 10 ^ k := mul_le_mul_of_nonneg_right hs' hw.le
    linarith

/-! ## The exponent part -/

theorem tiny_value {n : Nat} (hn : n ≤ u64Max) {E : Int} (hE : E ≤ -617) : (n : ℚ) * 10 ^ E ≤ eta := by
  have hn1 : (n : ℚ) ≤ 18446744073709551615 := by exact_mod_cast hn
  have h3 : (10 : ℚ) ^ E ≤ 10 ^ (-617 : Int) := zpow_le_zpow_right₀ (by norm_num) hE
  have h4 : (n : ℚ) * 10 ^ E ≤ 18446744073709551615 * 10 ^ (-617 : Int) := mul_le_mul hn1 h3 (by positivity) (by norm_num)
  have h5 : (18446744073709551615 : ℚ) * 10 ^ (-617 : Int) ≤ eta := by unfold eta; norm_num
  exact le_trans h4 h5

theorem huge_value {n : Nat} (h0 : n ≠ 0) {E : Int} (hE : 309 ≤ E) : binary64.limit * (1 - 3 * eps) ≤ (n : ℚ) * 10 ^ E := by
  have hn1 : (1 : ℚ) ≤ n := by exact_mod_cast Nat.pos_of_ne_zero h0
  have h3 : (10 : ℚ) ^ (309 : Int) ≤ 10 ^ E := zpow_le_zpow_right₀ (by norm_num) hE
  have h4 : (10 : ℚ) ^ E ≤ n * 10 ^ E := le_mul_of_one_le_left (by positivity) hn1
  have h5 := limit_lt
  have h6 : binary64.limit * (1 - 3 * eps) ≤ binary64.limit * 1 :=
    mul_le_mul_of_nonneg_left (by have := eps_pos; linarith) Fmt.limit_pos.le
  rw [mul_one] at h6
  exact le_trans h6 (le_trans h5 (le_trans h3 h4))

/-- The outcome of evaluating `±n * 10^E`. -/
inductive Evaluates (s : Bool) (r : ℚ) : Res F64 → Prop
  | err (h : binary64.limit * (1 - 3 * eps) ≤ r) : Evaluates s r .err
  | ok {m : Nat} {e : Int} (hv : (Flt.fin s m e).Valid binary64)
      (h : |(m : ℚ) * 2 ^ e - r| ≤ 11 / 2 * eps * r + 2 * eta) : Evaluates s r (.ok (.fin s m e))

theorem fromParts_of_loop {nn : Bool} {n : Nat} {E : Int} {m : Nat} {e : Int}
    (h : De.f64Loop (Flt.ofNat binary64 n) E = .ok (.fin false m e)) : De.f64FromParts nn n E = .ok (.fin (!nn) m e) := by
  unfold De.f64FromParts
  rw [h]
  cases nn <;> rfl

theorem fromParts_err {nn : Bool} {n : Nat} {E : Int} (h : De.f64Loop (Flt.ofNat binary64 n) E = .err) :
    De.f64FromParts nn n E = .err := by
  unfold De.f64FromParts
  rw [h]; rfl

theorem fromParts_near (nn : Bool) {n : Nat} (hn : n ≤ u64Max) (E : Int) :
    Evaluates (!nn) (n * 10 ^ E) (De.f64FromParts nn n E) := by
  rcases f64Loop_near hn E with ⟨h, h1⟩ | ⟨m, e, h, hv, h1, -⟩
  · rw [fromParts_err h]; exact .err h1
  · rw [fromParts_of_loop h]; exact .ok hv h1

theorem zero_evaluates (s : Bool) {r : ℚ} (h0 : 0 ≤ r) (h : r ≤ eta) : Evaluates s r (.ok (.fin s 0 binary64.emin)) := by
  refine .ok ⟨by decide, le_refl _, by decide, .inl rfl⟩ ?_
  have := eps_pos
  have h1 : 0 ≤ 11 / 2 * eps * r := by positivity
  simp only [Nat.cast_zero, zero_mul, zero_sub, abs_neg, abs_of_nonneg h0]
  linarith

/-- Evaluation with the exponent part. -/
theorem expValue_near (nn : Bool) {n : Nat} (hn : n ≤ u64Max) {st : Int} (h1 : -2147482700 ≤ st) (h2 : st ≤ 2147482700)
    (xo : Option ExpPart) :
    Evaluates (!nn) (n * 10 ^ (st + xo.elim 0 ExpPart.value)) (expValue nn n st xo) := by
  cases xo with
  | none => simp only [Option.elim_none, add_zero]; exact fromParts_near nn hn st
  | some x =>
    simp only [Option.elim_some]
    unfold expValue
    simp only
    have e0 : digitsFrom 0 x.digits = digitsVal x.digits := rfl
    by_cases hfit : digitsVal x.digits ≤ 2147483647
    · rw [accum_exact (by rw [e0]; exact hfit), e0]
      simp only [ne_eq, not_true_eq_false, if_false]
      have ev : (if (x.sign != some true) = true then st + (digitsVal x.digits : Int) else st - (digitsVal x.digits : Int)) = st + x.value := by
        unfold ExpPart.value
        by_cases hs : x.sign = some true
        · simp [hs]; ring
        · simp [hs]
      rw [ev]
      have hb : -2147483647 - 2147482700 ≤ st + x.value ∧ st + x.value ≤ 2147483647 + 2147482700 := by
        unfold ExpPart.value; split <;> omega
      have hM : I32_MAX = 2147483647 := rfl
      have hm : I32_MIN = -2147483648 := rfl
      unfold satI32
      by_cases hhi : I32_MAX < st + x.value
      · rw [if_neg (by omega), if_pos hhi]
        by_cases h0 : n = 0
        · subst h0
          have := fromParts_near nn hn I32_MAX
          simpa using this
        · rw [fromParts_err (f64Loop_big hn h0 (by omega))]
          exact .err (huge_value h0 (by omega))
      · by_cases hlo : st + x.value < I32_MIN
        · rw [if_pos hlo]
          obtain ⟨e, h, hv⟩ := f64Loop_small hn (E := I32_MIN) (by omega)
          rw [fromParts_of_loop h]
          refine .ok hv ?_
          have hr : (0 : ℚ) ≤ (n : ℚ) * 10 ^ (st + x.value) := by positivity
          have ht := tiny_value hn (E := st + x.value) (by omega)
          have := eps_pos
          have h1 : 0 ≤ 11 / 2 * eps * ((n : ℚ) * 10 ^ (st + x.value)) := by positivity
          simp only [Nat.cast_zero, zero_mul, zero_sub, abs_neg, abs_of_nonneg hr]
          linarith
        · rw [if_neg hlo, if_neg hhi]
          exact fromParts_near nn hn _
    · have hne := accum_over (bound := 2147483647) (acc := 0) (ds := x.digits) (by rw [e0]; omega) (by omega)
      rw [if_pos hne]
      by_cases hs : x.sign = some true
      · have ev : x.value = -(digitsVal x.digits : Int) := by unfold ExpPart.value; rw [if_pos hs]
        rw [if_neg (by simp [hs])]
        exact zero_evaluates _ (by positivity) (tiny_value hn (by omega))
      · have ev : x.value = (digitsVal x.digits : Int) := by unfold ExpPart.value; rw [if_neg hs]
        by_cases h0 : n = 0
        · subst h0
          rw [if_neg (by simp)]
          exact zero_evaluates _ (by simp) (by simp [eta_pos.le])
        · rw [if_pos ⟨h0, by simpa using hs⟩]
          exact .err (huge_value h0 (by omega))

theorem NumLit.absValue_eq (l : NumLit) :
    l.absValue = l.digits * 10 ^ (-(l.fracLen : Int)) * 10 ^ (l.exp.elim 0 ExpPart.value) := by
  unfold NumLit.absValue NumLit.digits NumLit.fracLen
  rw [sub_eq_add_neg, add_comm, zpow_add₀ (by norm_num), mul_assoc]

theorem NumLit.absValue_nonneg (l : NumLit) : 0 ≤ l.absValue := by
  unfold NumLit.absValue; positivity

/-- **Accuracy of float literals.** -/
theorem numEvent_near {l : NumLit} (hl : l.WF) (hi : ¬ l.isInt) (hlen : l.text.length ≤ 2147482700) :
    (numEvent l = .err ∧ binary64.limit * (1 - 4 * eps) ≤ l.absValue) ∨
    ∃ m e, numEvent l = .ok (.float (.fin l.minus m e)) ∧ (Flt.fin l.minus m e).Valid binary64 ∧
      |(m : ℚ) * 2 ^ e - l.absValue| ≤ 6 * eps * l.absValue + 2 * eta := by
  obtain ⟨he, h1, h2⟩ := numEvent_float_ok hi (by omega)
  have hlen2 : l.int.length ≤ 2147482700 ∧ (l.frac.getD []).length ≤ 2147482700 := by
    unfold NumLit.text at hlen
    simp only [List.length_append] at hlen
    refine ⟨by omega, ?_⟩
    cases hf : l.frac with
    | none => simp
    | some fs => rw [hf] at hlen; simp only [List.length_cons] at hlen; simp only [Option.getD_some]; omega
  have hev := expValue_near (!l.minus) (sigExp_le l) (st := (sigExp l).2) (by omega) (by omega) l.exp
  rw [Bool.not_not] at hev
  have hpow : (0 : ℚ) < 10 ^ (l.exp.elim 0 ExpPart.value) := by positivity
  have hnear : |((sigExp l).1 : ℚ) * 10 ^ ((sigExp l).2 + l.exp.elim 0 ExpPart.value) - l.absValue| ≤ 1 / 100 * eps * l.absValue := by
    have h := sigExp_near hl
    have e60 : (2 : ℚ) ^ (-60 : Int) ≤ 1 / 100 * eps := by unfold eps; norm_num
    have h4 : (0 : ℚ) ≤ l.digits * 10 ^ (-(l.fracLen : Int)) := by positivity
    have h := le_trans h (mul_le_mul_of_nonneg_right e60 h4)
    have h3 := mul_le_mul_of_nonneg_right h hpow.le
    rw [NumLit.absValue_eq, zpow_add₀ (by norm_num), ← mul_assoc, ← sub_mul, abs_mul, abs_of_pos hpow, ← mul_assoc]
    exact h3
  have hε := eps_pos
  have hr0 := l.absValue_nonneg
  have hε1 : eps * eps ≤ 1 / 1000 * eps := by unfold eps; norm_num
  rw [he]
  generalize ((sigExp l).1 : ℚ) * 10 ^ ((sigExp l).2 + l.exp.elim 0 ExpPart.value) = v at *
  generalize expValue (!l.minus) (sigExp l).1 (sigExp l).2 l.exp = res at *
  cases hev with
  | err h =>
    refine .inl ⟨rfl, ?_⟩
    have h3 := (abs_le.1 hnear).2
    have h4 : binary64.limit * (1 - 3 * eps) ≤ l.absValue * (1 + 1 / 100 * eps) := by linarith
    have h5 : 0 < 1 + 1 / 100 * eps := by linarith
    have h6 : (1 - 4 * eps) * (1 + 1 / 100 * eps) ≤ 1 - 3 * eps := by unfold eps; norm_num
    have h7 : binary64.limit * ((1 - 4 * eps) * (1 + 1 / 100 * eps)) ≤ binary64.limit * (1 - 3 * eps) :=
      mul_le_mul_of_nonneg_left h6 Fmt.limit_pos.le
    rw [← mul_assoc] at h7
    exact le_of_mul_le_mul_right (le_trans h7 h4) h5
  | @ok m e hv h =>
    refine .inr ⟨m, e, rfl, hv, ?_⟩
    have h3 := rel_trans (by linarith) h hnear
    refine le_trans h3 ?_
    have h4 : 11 / 2 * eps + 1 / 100 * eps + 11 / 2 * eps * (1 / 100 * eps) ≤ 6 * eps := by linarith
    have := mul_le_mul_of_nonneg_right h4 hr0
    linarith

end Miniserde
