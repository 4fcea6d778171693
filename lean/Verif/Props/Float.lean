import Verif.Proof.FloatApi

/-!
# Properties of floating-point numbers

Exact values are rationals: `NumLit.value` of a literal, `Flt.val` of a float.  `RoundsTo f r x` (`Spec/FloatVal.lean`) says that `x` is `r` rounded to the
nearest number of the format `f`, ties to even, infinite beyond the range.
-/

namespace Miniserde

/-- Rounding is a function: the specification `RoundsTo` leaves only the sign of zero open. -/
theorem RoundsTo_unique {f : Fmt} (hf : f.Ok) {r : ℚ} {x y : Flt} (h : RoundsTo f r x) (h' : RoundsTo f r y) (hr : r ≠ 0) : x = y :=
  h.unique hf h' (fun h => absurd h hr)

/-- ... and every rational has a rounding. -/
theorem RoundsTo_exists {f : Fmt} (hf : f.Ok) (r : ℚ) : ∃ x, RoundsTo f r x := by
  rcases le_or_gt 0 r with h | h
  · have h1 := round_correct hf false r.num.natAbs r.den r.den_pos
    have : signed false r.num.natAbs r.den = r := by
      have h2 : ((r.num.natAbs : Nat) : Int) = r.num := by have := Rat.num_nonneg.2 h; omega
      have h3 : (((r.num.natAbs : Nat) : Int) : ℚ) = (r.num : ℚ) := by rw [h2]
      have h3 : ((r.num.natAbs : Nat) : ℚ) = (r.num : ℚ) := h3
      simp only [signed, h3, Rat.num_div_den, Bool.false_eq_true, if_false, one_mul]
    rw [this] at h1
    exact ⟨_, h1⟩
  · have h1 := round_correct hf true r.num.natAbs r.den r.den_pos
    have : signed true r.num.natAbs r.den = r := by
      have h2 : ((r.num.natAbs : Nat) : Int) = -r.num := by have := Rat.num_neg.2 h; omega
      have h3 : (((r.num.natAbs : Nat) : Int) : ℚ) = ((-r.num : Int) : ℚ) := by rw [h2]
      rw [Int.cast_neg] at h3
      have h3 : ((r.num.natAbs : Nat) : ℚ) = -(r.num : ℚ) := h3
      simp only [signed, h3, neg_div, Rat.num_div_den, if_true, neg_mul, one_mul, neg_neg]
    rw [this] at h1
    exact ⟨_, h1⟩

/-! ## A correct printer exists -/

theorem decimal_length {n k : Nat} (h : n < 10 ^ (k + 1)) : (decimal n).length ≤ k + 1 := by
  induction k generalizing n with
  | zero => rw [decimal, dif_pos (by simpa using h)]; simp
  | succ k ih =>
    rw [decimal]
    split
    · simp
    · have := ih (n := n / 10) (by rw [Nat.div_lt_iff_lt_mul (by omega)]; rw [pow_succ 10 (k + 1)] at h; exact h)
      simp; omega

/-- A literal made of sign, digits and exponent is as long as its parts. -/
theorem text_length_le {l : NumLit} {a b c : Nat} (h1 : l.int.length ≤ a) (h2 : (l.frac.getD []).length ≤ b)
    (h3 : ∀ x, l.exp = some x → x.digits.length ≤ c) : l.text.length ≤ a + b + c + 4 := by
  obtain ⟨s, i, f, x⟩ := l
  have e2 : ∀ y : ExpPart, y.digits.length ≤ c → y.text.length ≤ c + 2 := by
    rintro ⟨u, sg, ds⟩ h
    cases u <;> rcases sg with _ | _ | _ <;> simp [ExpPart.text] <;> simp at h <;> omega
  have e3 : (if s then [0x2D] else [] : Bytes).length ≤ 1 := by cases s <;> simp
  simp only [NumLit.text, List.length_append]
  simp only at h1
  cases f <;> cases x <;> simp only [List.length_nil, List.length_cons, Option.getD_none, Option.getD_some] at *
  · omega
  · have := e2 _ (h3 _ rfl); omega
  · omega
  · have := e2 _ (h3 _ rfl); omega

theorem exLit_value {s : Bool} {m : Nat} {e : Int} : (exLit (.fin s m e)).value = (Flt.fin s m e).val := by
  match e with
  | .ofNat e =>
    have h0 : digitsVal (decimal (m * 2 ^ e) ++ str! "0") = m * 2 ^ e * 10 := by
      rw [show str! "0" = [0x30] from rfl, digitsVal_append, decimal_val]; simp
    simp only [exLit, NumLit.value, NumLit.absValue, Flt.val, Option.getD_some, h0]
    congr 1
    simp
  | .negSucc k =>
    simp only [exLit, NumLit.value, NumLit.absValue, Flt.val, Option.getD_none, List.append_nil, decimal_val]
    congr 1
    simp only [Option.elim, ExpPart.value, if_true, decimal_val, List.length_nil, Nat.cast_zero, sub_zero]
    rw [show (Int.negSucc k) = -((k + 1 : Nat) : Int) from rfl, zpow_neg, zpow_neg, zpow_natCast, zpow_natCast]
    rw [show (10 : ℚ) = 2 * 5 by norm_num, mul_pow]
    push_cast
    field_simp

set_option exponentiation.threshold 4000 in
/-- `RyuRounds` can be met, together with `RyuSyntax` (`exRyu`). -/
theorem exRyuRounds : RyuRounds exLit where
  value x hf hv := by
    match x, hf with
    | .fin s m e, _ => rw [exLit_value]; exact RoundsTo.self hv
  sign x hf hv := by
    match x, hf with
    | .fin s m (.ofNat e), _ => rfl
    | .fin s m (.negSucc k), _ => rfl
  short x hf hv := by
    match x, hf with
    | .fin s m (.ofNat e), _ =>
      have h1 : m < 2 ^ 53 := hv.1
      have h2 : (e : Int) ≤ 971 := hv.2.2.1
      have h3 : m * 2 ^ e < 10 ^ (399 + 1) := by
        calc m * 2 ^ e ≤ 2 ^ 53 * 2 ^ 971 := Nat.mul_le_mul h1.le (Nat.pow_le_pow_right (by omega) (by omega))
          _ < 10 ^ (399 + 1) := by norm_num
      refine (text_length_le (a := 400) (b := 1) (c := 0) (decimal_length h3) (by simp [exLit]) ?_).trans (by omega)
      intro y hy; cases hy
    | .fin s m (.negSucc k), _ =>
      have h1 : m < 2 ^ 53 := hv.1
      have h2 : (-1074 : Int) ≤ Int.negSucc k := hv.2.1
      have h3 : m * 5 ^ (k + 1) < 10 ^ (999 + 1) := by
        calc m * 5 ^ (k + 1) ≤ 2 ^ 53 * 5 ^ 1074 := Nat.mul_le_mul h1.le (Nat.pow_le_pow_right (by omega) (by omega))
          _ < 10 ^ (999 + 1) := by norm_num
      have h4 : k + 1 < 10 ^ (9 + 1) := by omega
      refine (text_length_le (a := 1000) (b := 0) (c := 10) (decimal_length h3) (by simp [exLit]) ?_).trans (by omega)
      intro y hy; cases hy; exact decimal_length h4

/-! ## C14 -/

/-- **C14.** On any input at all, a visitor that insists on finite floats and on integers in the range of `u64`, `i64` sees no
difference. -/
theorem C14_delivered_numbers {σ : Type} (P : Proto σ) (v : P.V) (w : σ) (s : Bytes) :
    fromStrImpl P.checkNumbers s v w = fromStrImpl P s v w :=
  fromStrImpl_checkNum P v w _ (Nat.lt_succ_self _)

/-- **C14.** Whatever type is parsed, no `f64` in the result is infinite or NaN. -/
theorem C14_finite (E : Env) (t : Ty) (s : Bytes) (v : Val) (h : parseAs E t s = some (.ok v)) : v.Finite := by
  obtain ⟨j, -, hd⟩ := (parseAs_ok E).1 h
  exact decode_finite hd

/-- **C14.** The sign of an `f64` is the sign of its literal, except that the integer literal `-0` gives `+0.0`. -/
theorem C14_sign (E : Env) (s : Bytes) (l : NumLit) (h : JText s (.num l)) (x : F64) (hx : parseAs E .f64 s = some (.ok (.f64 x)))
    (hz : ¬ (l.minus = true ∧ l.frac = none ∧ l.exp = none ∧ digitsVal l.int = 0)) : x.isFinite = true ∧ x.sign = l.minus := by
  have hfin : x.isFinite = true := by cases C14_finite E _ _ _ hx; assumption
  refine ⟨hfin, ?_⟩
  cases hn : numEvent l with
  | err =>
    obtain ⟨j, hj, hd⟩ := (parseAs_ok E).1 hx
    obtain ⟨l', ev, hj, he, hd⟩ := parse_num_only E (.inr (.inl rfl)) hx
    have h1 := C02_traverses_the_tree tracer () [] s _ h
    have h2 := C02_traverses_the_tree tracer () [] s _ hj
    rw [h1] at h2
    simp only [drive, driveNum, hn, he] at h2
    rcases numEvent_range he with ⟨n, rfl, -⟩ | ⟨z, rfl, -⟩ | ⟨m, e, rfl, -⟩ <;> cases h2
  | panic =>
    obtain ⟨l', ev, hj, he, hd⟩ := parse_num_only E (.inr (.inl rfl)) hx
    have h1 := C02_traverses_the_tree tracer () [] s _ h
    have h2 := C02_traverses_the_tree tracer () [] s _ hj
    rw [h1] at h2
    simp only [drive, driveNum, hn, he] at h2
    rcases numEvent_range he with ⟨n, rfl, -⟩ | ⟨z, rfl, -⟩ | ⟨m, e, rfl, -⟩ <;> cases h2
  | ok ev =>
    rcases numEvent_range hn with ⟨n, rfl, hle, hm⟩ | ⟨z, rfl, h1, h2, hm⟩ | ⟨m, e, rfl, hv⟩
    · have := parse_num E h (.inr (.inl rfl)) hn (v := .f64 (Flt.ofNat binary64 n)) rfl
      rw [hx] at this
      cases this
      obtain ⟨m, e, hr, -⟩ := ofNat_near hle
      rw [hr, hm]; rfl
    · have := parse_num E h (.inr (.inl rfl)) hn (v := .f64 (Flt.ofInt binary64 z)) rfl
      rw [hx] at this
      cases this
      have hz' : z < 0 := by
        by_contra hc
        have hz0 : z = 0 := by omega
        subst hz0
        refine hz ⟨hm, ?_⟩
        have hi : l.isInt := by
          by_contra hi
          rcases numEvent_float hi with h' | h' <;> rw [h'] at hn
          · revert hn
            generalize expValue (!l.minus) (sigExp l).1 (sigExp l).2 l.exp = r
            cases r <;> intro hn <;> cases hn
          · cases hn
        refine ⟨hi.2.1, hi.2.2, ?_⟩
        rw [numEvent_int hi.2.1 hi.2.2, if_pos hi.1, if_pos hm] at hn
        split at hn
        · have e := Event.negative.inj (Res.ok.inj hn)
          omega
        · cases hn
      have hb : z.natAbs ≤ u64Max := by
        have e1 : i64Min = -9223372036854775808 := rfl
        have e2 : u64Max = 18446744073709551615 := rfl
        omega
      obtain ⟨m, e, hr, -⟩ := ofInt_fin hb
      rw [hr, hm]
      simp only [Flt.sign, decide_eq_true_eq]
      exact hz'
    · have := parse_num E h (.inr (.inl rfl)) hn (v := .f64 (.fin l.minus m e)) rfl
      rw [hx] at this
      cases this
      rfl

/-- The exception is real. -/
example (E : Env) : parseAs E .f64 (str! "-0") = some (.ok (.f64 (.fin false 0 (-1074)))) := by
  have he : numEvent ⟨true, str! "0", none, none⟩ = .ok (.negative 0) := by decide +kernel
  refine parse_num E (num_text ⟨true, str! "0", none, none⟩ ⟨by decide, by decide, by simp, by simp⟩) (.inr (.inl rfl)) he ?_
  have : Flt.ofInt binary64 0 = .fin false 0 (-1074) := by decide +kernel
  simp [decodeNum, this]

/-! ## C15 -/

/-- **C15.** What any visitor gets for a literal with a fraction or an exponent, or too long for `u64`: a finite float within `6·2⁻⁵³` (relative)
plus `2⁻¹⁰⁷⁴` (absolute) of the literal, or an error for literals that close to the limit of the `f64` range or beyond. -/
theorem C15_delivered {σ : Type} (P : Proto σ) (v : P.V) (w : σ) (s : Bytes) (l : NumLit) (h : JText s (.num l)) (hs : s.length ≤ 2147482700)
    (hi : u64Max < digitsVal l.int ∨ l.frac ≠ none ∨ l.exp ≠ none) :
    (fromStrImpl P s v w = some (.err, w) ∧ binary64.limit * (1 - 4 * 2 ^ (-53 : Int)) ≤ |l.value|) ∨
    ∃ x : F64, fromStrImpl P s v w = some (P.float v x w) ∧ x.isFinite = true ∧ x.sign = l.minus ∧
      |x.val - l.value| ≤ 6 * 2 ^ (-53 : Int) * |l.value| + 2 ^ (-1074 : Int) := by
  obtain ⟨hw, hl⟩ := jtext_num h
  have hi' : ¬ l.isInt := by
    rintro ⟨h1, h2, h3⟩
    rcases hi with hi | hi | hi
    · omega
    · exact hi h2
    · exact hi h3
  rw [C02_traverses_the_tree P v w s _ h]
  simp only [drive, driveNum]
  rw [← eps_pow, ← eta_pow, NumLit.abs_value]
  rcases numEvent_near hw hi' (by omega) with ⟨h1, h2⟩ | ⟨m, e, h1, hv, h2⟩
  · left; rw [h1]; exact ⟨rfl, h2⟩
  · right; rw [h1]
    exact ⟨_, rfl, rfl, rfl, by rw [signed_err]; exact h2⟩

/-- **C12, integers beyond the range.** An integer literal that fits neither `u64` nor (with a minus sign) `i64` is delivered as a finite float of the literal's
sign within `6·2⁻⁵³` (relative) of its value, correctly rounded if the digits fit `u64`; or it is an error because it is close to the limit of the `f64` range or
beyond. -/
theorem C12_too_large {σ : Type} (P : Proto σ) (v : P.V) (w : σ) (s : Bytes) (l : NumLit) (h : JText s (.num l)) (hs : s.length ≤ 2147482700)
    (hf : l.frac = none) (hx : l.exp = none) (h1 : l.minus = false → u64Max < digitsVal l.int) (h2 : l.minus = true → -(digitsVal l.int : Int) < i64Min) :
    (fromStrImpl P s v w = some (.err, w) ∧ binary64.limit * (1 - 4 * 2 ^ (-53 : Int)) ≤ |l.value|) ∨
    ∃ x : F64, fromStrImpl P s v w = some (P.float v x w) ∧ x.isFinite = true ∧ x.sign = l.minus ∧
      |x.val - l.value| ≤ 6 * 2 ^ (-53 : Int) * |l.value| + 2 ^ (-1074 : Int) ∧ (digitsVal l.int ≤ u64Max → RoundsTo binary64 l.value x) := by
  by_cases hd : digitsVal l.int ≤ u64Max
  · right
    have hm : l.minus = true := by
      cases hm : l.minus with
      | true => rfl
      | false => have := h1 hm; omega
    have h3 := h2 hm
    have hi : ¬ digitsVal l.int ≤ 9223372036854775808 := by unfold i64Min at h3; omega
    have hr : RoundsTo binary64 l.value (Flt.ofNat binary64 (digitsVal l.int)).neg := by
      have hv : l.value = -(digitsVal l.int : ℚ) := by
        have hsc : l.scale = 0 := by unfold NumLit.scale; rw [hf, hx]; rfl
        rw [NumLit.value_eq, NumLit.digits_int hf, hsc, if_pos hm]; simp
      rw [hv]; exact (ofNat_rounds binary64_ok (digitsVal l.int)).neg
    have he := numEvent_int hf hx
    rw [if_pos hd, if_pos hm, if_neg hi] at he
    rcases numEvent_range he with ⟨n, h, -⟩ | ⟨z, h, -⟩ | ⟨m, e, hme, -⟩
    · cases h
    · cases h
    · rw [Event.float.inj hme] at hr he
      refine ⟨.fin l.minus m e, ?_, rfl, rfl, ?_, fun _ => hr⟩
      · rw [C02_traverses_the_tree P v w s _ h]
        simp only [drive, driveNum, he]
      · have := hr.bound64 rfl
        have h0 : 0 ≤ eps * |l.value| := mul_nonneg eps_pos.le (abs_nonneg _)
        rw [← eps_pow, ← eta_pow]
        have := eta_pos
        linarith
  · rcases C15_delivered P v w s l h hs (.inl (by omega)) with h3 | ⟨x, h3, h4, h5, h6⟩
    · exact .inl h3
    · exact .inr ⟨x, h3, h4, h5, h6, fun h => absurd h hd⟩

/-- `-9223372036854775809` is one below `i64::MIN`. -/
example : ∃ l : NumLit, JText (str! "-9223372036854775809") (.num l) ∧ l.frac = none ∧ l.exp = none ∧ l.minus = true ∧ -(digitsVal l.int : Int) < i64Min :=
  ⟨⟨true, str! "9223372036854775809", none, none⟩, num_text ⟨true, str! "9223372036854775809", none, none⟩ ⟨by decide, by decide, by simp, by simp⟩, rfl, rfl, rfl, by decide +kernel⟩

/-- **C15.** `from_str::<f64>` of any number literal. -/
theorem C15_accuracy (E : Env) (s : Bytes) (l : NumLit) (h : JText s (.num l)) (hs : s.length ≤ 2147482700) :
    (parseAs E .f64 s = some .err ∧ binary64.limit * (1 - 4 * 2 ^ (-53 : Int)) ≤ |l.value|) ∨
    ∃ x : F64, parseAs E .f64 s = some (.ok (.f64 x)) ∧ x.isFinite = true ∧
      |x.val - l.value| ≤ 6 * 2 ^ (-53 : Int) * |l.value| + 2 ^ (-1074 : Int) := by
  obtain ⟨hw, hl⟩ := jtext_num h
  rw [← eps_pow, ← eta_pow]
  have hε := eps_pos
  have hη := eta_pos
  by_cases hi : l.isInt
  · right
    obtain ⟨ev, he, hv⟩ := numEvent_isInt hi
    have hr := numEvent_inRange he
    have key : ∃ x, parseAs E .f64 s = some (.ok (.f64 x)) ∧ RoundsTo binary64 l.value x := by
      rcases hv with hv | ⟨x, rfl, hx⟩
      · cases hd : decodeNum ev .f64 with
        | none =>
          rcases numEvent_range he with ⟨n, rfl, -⟩ | ⟨z, rfl, -⟩ | ⟨m, e, rfl, -⟩ <;> cases hd
        | some v =>
          obtain ⟨x, rfl, hx⟩ := decode_f64 hr hd
          exact ⟨x, parse_num E h (.inr (.inl rfl)) he hd, hv ▸ hx⟩
      · exact ⟨x, parse_num E h (.inr (.inl rfl)) he rfl, hx⟩
    obtain ⟨x, h1, h2⟩ := key
    have hfin : x.isFinite = true := by cases C14_finite E _ _ _ h1; assumption
    refine ⟨x, h1, hfin, ?_⟩
    have := h2.bound64 hfin
    have h0 : 0 ≤ eps * |l.value| := mul_nonneg hε.le (abs_nonneg _)
    linarith
  · rcases numEvent_near hw hi (by omega) with ⟨h1, h2⟩ | ⟨m, e, h1, hv, h2⟩
    · left
      rw [NumLit.abs_value]
      exact ⟨parse_num_err E h (by omega) (.inr (.inl rfl)) h1, h2⟩
    · right
      refine ⟨_, parse_num E h (.inr (.inl rfl)) h1 rfl, rfl, ?_⟩
      rw [signed_err, NumLit.abs_value]; exact h2

example : JText (str! "-12.5e-3") (.num ⟨true, str! "12", some (str! "5"), some ⟨false, some true, str! "3"⟩⟩) ∧
    NumLit.value ⟨true, str! "12", some (str! "5"), some ⟨false, some true, str! "3"⟩⟩ = -125 / 10 ^ 4 := by
  constructor
  · refine num_text ⟨true, str! "12", some (str! "5"), some ⟨false, some true, str! "3"⟩⟩ ⟨by decide, by decide, ?_, ?_⟩
    · intro ds h; cases h; decide
    · intro x h; cases h; decide
  · have e1 : digitsVal (str! "12" ++ str! "5") = 125 := by decide +kernel
    have e2 : digitsVal (str! "3") = 3 := by decide +kernel
    simp only [NumLit.value, NumLit.absValue, Option.getD_some, Option.elim_some, ExpPart.value, if_true, e1, e2]
    norm_num

/-! ## C16 -/

/-- **C16.** If the digits of the literal form an integer below `2⁵³` and its power of ten is between `-22` and `22`, the `f64` is the correctly rounded
value of the literal. -/
theorem C16_short_decimals (E : Env) (s : Bytes) (l : NumLit) (h : JText s (.num l)) (hs : s.length ≤ 2147482700)
    (hd : digitsVal (l.int ++ l.frac.getD []) < 2 ^ 53) (h1 : -22 ≤ (l.exp.elim 0 ExpPart.value) - ((l.frac.getD []).length : Int))
    (h2 : (l.exp.elim 0 ExpPart.value) - ((l.frac.getD []).length : Int) ≤ 22) :
    ∃ x : F64, parseAs E .f64 s = some (.ok (.f64 x)) ∧ RoundsTo binary64 l.value x := by
  obtain ⟨hw, hl⟩ := jtext_num h
  by_cases hi : l.isInt
  · obtain ⟨ev, he, hv⟩ := numEvent_isInt hi
    rcases hv with hv | ⟨x, rfl, hx⟩
    · cases hd : decodeNum ev .f64 with
      | none => rcases numEvent_range he with ⟨n, rfl, -⟩ | ⟨z, rfl, -⟩ | ⟨m, e, rfl, -⟩ <;> cases hd
      | some v =>
        obtain ⟨x, rfl, hx⟩ := decode_f64 (numEvent_inRange he) hd
        exact ⟨x, parse_num E h (.inr (.inl rfl)) he hd, hv ▸ hx⟩
    · exact ⟨x, parse_num E h (.inr (.inl rfl)) he rfl, hx⟩
  · obtain ⟨m, e, he, hx⟩ := numEvent_short hi (by omega) hd h1 h2
    exact ⟨_, parse_num E h (.inr (.inl rfl)) he rfl, hx⟩

/-- **C16.** Integer literals of magnitude up to `u64::MAX` are correctly rounded too. -/
theorem C16_integers (E : Env) (s : Bytes) (l : NumLit) (h : JText s (.num l)) (hf : l.frac = none) (hx : l.exp = none)
    (hd : digitsVal l.int ≤ u64Max) : ∃ x : F64, parseAs E .f64 s = some (.ok (.f64 x)) ∧ RoundsTo binary64 l.value x := by
  obtain ⟨ev, he, hv⟩ := numEvent_isInt ⟨hd, hf, hx⟩
  rcases hv with hv | ⟨x, rfl, hx⟩
  · cases hd : decodeNum ev .f64 with
    | none => rcases numEvent_range he with ⟨n, rfl, -⟩ | ⟨z, rfl, -⟩ | ⟨m, e, rfl, -⟩ <;> cases hd
    | some v =>
      obtain ⟨x, rfl, hx⟩ := decode_f64 (numEvent_inRange he) hd
      exact ⟨x, parse_num E h (.inr (.inl rfl)) he hd, hv ▸ hx⟩
  · exact ⟨x, parse_num E h (.inr (.inl rfl)) he rfl, hx⟩

/-- **C16.** What is exactly representable is parsed exactly: integers up to `2⁵³`, `0.5`, `12.25`, ... -/
theorem C16_exact (E : Env) (s : Bytes) (l : NumLit) (h : JText s (.num l)) (hs : s.length ≤ 2147482700)
    (hd : digitsVal (l.int ++ l.frac.getD []) < 2 ^ 53) (h1 : -22 ≤ (l.exp.elim 0 ExpPart.value) - ((l.frac.getD []).length : Int))
    (h2 : (l.exp.elim 0 ExpPart.value) - ((l.frac.getD []).length : Int) ≤ 22) (hr : binary64.Has l.value) :
    ∃ x : F64, parseAs E .f64 s = some (.ok (.f64 x)) ∧ x.val = l.value := by
  obtain ⟨x, h3, h4⟩ := C16_short_decimals E s l h hs hd h1 h2
  exact ⟨x, h3, (h4.exact hr).2⟩

/-- `0.1` meets the hypotheses: 1 and `10⁻¹`. -/
example : digitsVal (str! "0" ++ str! "1") < 2 ^ 53 ∧ -22 ≤ (0 : Int) - ((str! "1").length : Int) := by decide +kernel

/-! ## C17 -/

section
variable {ryu : F64 → Bytes} {lit : F64 → NumLit}

/-- What `to_string` writes for the four float-carrying values. -/
theorem prints_floats (E : Env) (order : Nat → List (Bytes × Val) → List (Bytes × Val)) (o : Bytes) :
    (∀ x : F64, PrintsAs E order ryu .f64 (.f64 x) o ↔ o = if x.isFinite then ryu x else str! "null") ∧
    (∀ x : F32, PrintsAs E order ryu .f32 (.f32 x) o ↔ o = if (x.cast binary64).isFinite then ryu (x.cast binary64) else str! "null") ∧
    (∀ x : F64, PrintsAs E order ryu .number (.numF x) o ↔ o = if x.isFinite then ryu x else str! "null") ∧
    (∀ x : F64, PrintsAs E order ryu .value (.numF x) o ↔ o = if x.isFinite then ryu x else str! "null") := by
  have key : ∀ (t : Ty) (v : Val) (x : F64), beginVal E order t v SHeap.empty = (some (.f64 x), SHeap.empty) →
      (PrintsAs E order ryu t v o ↔ o = if x.isFinite then ryu x else str! "null") := by
    intro t v x hb
    have hp : Prints (serLib E order) ryu (t, v) SHeap.empty (if x.isFinite then ryu x else str! "null") SHeap.empty := by
      refine ⟨1, ?_⟩
      have : beginWith (P := serLib E order) [] [] (t, v) SHeap.empty = .running ⟨[], [], .f64 x, SHeap.empty⟩ := by
        unfold beginWith
        have hb' : (serLib E order).begin (t, v) SHeap.empty = (some (.f64 x), SHeap.empty) := hb
        rw [hb']
      show runS ryu 1 (beginWith (P := serLib E order) [] [] (t, v) SHeap.empty) = _
      rw [this]
      simp only [runS, stepS, advance, List.nil_append]
    constructor
    · rintro ⟨w, h⟩; exact (Prints.unique h hp).1
    · rintro rfl; exact ⟨_, hp⟩
  exact ⟨fun x => key _ _ x rfl, fun x => key _ _ _ rfl, fun x => key _ _ x rfl, fun x => key _ _ x rfl⟩

/-- **C17, what is true.** An `f64` whose literal has digits below `2⁵³` and a power of ten between `-22` and `22` is read back exactly as
it was written, also `-0.0`. -/
theorem C17_short_round_trip (E : Env) (order : Nat → List (Bytes × Val) → List (Bytes × Val)) (hr : RyuSyntax ryu lit) (hv : RyuRounds lit)
    (x : F64) (hx : x.isFinite = true) (hx' : x.Valid binary64)
    (hd : digitsVal ((lit x).int ++ (lit x).frac.getD []) < 2 ^ 53)
    (h1 : -22 ≤ ((lit x).exp.elim 0 ExpPart.value) - (((lit x).frac.getD []).length : Int))
    (h2 : ((lit x).exp.elim 0 ExpPart.value) - (((lit x).frac.getD []).length : Int) ≤ 22)
    (o : Bytes) (ho : PrintsAs E order ryu .f64 (.f64 x) o) : parseAs E .f64 o = some (.ok (.f64 x)) := by
  rw [(prints_floats E order o).1 x, if_pos hx, hr.text x hx] at ho
  subst ho
  have hj := num_text (lit x) (hr.wf x hx)
  have hi : ¬ (lit x).isInt := by
    rintro ⟨-, h3, h4⟩
    rcases hr.notInt x hx with h | h
    · exact h h3
    · exact h h4
  obtain ⟨m, e, he, hr'⟩ := numEvent_short hi (hv.short x hx hx') hd h1 h2
  have := hr'.unique binary64_ok (hv.value x hx hx') (fun _ => hv.sign x hx hx')
  have h3 := parse_num (v := .f64 (.fin (lit x).minus m e)) E hj (.inr (.inl rfl)) he rfl
  rw [h3, this]

theorem back_bound {L y x : ℚ} (h1 : |y - L| ≤ 6 * eps * |L| + 2 * eta) (h2 : |x - L| ≤ eps * |L| + eta) :
    |y - x| ≤ 8 * eps * |x| + 4 * eta := by
  have hη := eta_pos
  have h3 := abs_sub_abs_le_abs_sub L x
  rw [abs_sub_comm L x] at h3
  have h4 := abs_sub_le y L x
  rw [abs_sub_comm L x] at h4
  have h5 := abs_nonneg L
  have h6 := abs_nonneg x
  unfold eps at *
  linarith

/-- **C17, what is true.** Reading back an `f64` gives the same sign and an error of at most `8·2⁻⁵³` (relative, four units in the last place) plus
`2⁻¹⁰⁷³`; it can fail only for numbers within `6·2⁻⁵³` of the limit of the range. -/
theorem C17_close (E : Env) (order : Nat → List (Bytes × Val) → List (Bytes × Val)) (hr : RyuSyntax ryu lit) (hv : RyuRounds lit)
    (x : F64) (hx : x.isFinite = true) (hx' : x.Valid binary64) (o : Bytes) (ho : PrintsAs E order ryu .f64 (.f64 x) o) :
    (parseAs E .f64 o = some .err ∧ binary64.limit * (1 - 6 * 2 ^ (-53 : Int)) ≤ |x.val|) ∨
    ∃ y : F64, parseAs E .f64 o = some (.ok (.f64 y)) ∧ y.isFinite = true ∧ y.sign = x.sign ∧
      |y.val - x.val| ≤ 8 * 2 ^ (-53 : Int) * |x.val| + 2 ^ (-1073 : Int) := by
  rw [(prints_floats E order o).1 x, if_pos hx, hr.text x hx] at ho
  subst ho
  have hj := num_text (lit x) (hr.wf x hx)
  have hi : ¬ (lit x).isInt := by
    rintro ⟨-, h3, h4⟩
    rcases hr.notInt x hx with h | h
    · exact h h3
    · exact h h4
  have hlen := hv.short x hx hx'
  have hb := (hv.value x hx hx').bound64 hx
  have e1 : (2 : ℚ) ^ (-1073 : Int) = 4 * eta := by
    have h : (2 : ℚ) ^ (-1073 : Int) = 2 ^ (-1074 : Int) * 2 := by rw [← zpow_add_one₀ (by norm_num)]; rfl
    rw [h, ← eta_pow]; ring
  rw [← eps_pow, e1]
  rcases numEvent_near (hr.wf x hx) hi hlen with ⟨h1, h2⟩ | ⟨m, e, h1, hv', h2⟩
  · left
    refine ⟨parse_num_err E hj (by omega) (.inr (.inl rfl)) h1, ?_⟩
    rw [← NumLit.abs_value] at h2
    have h3 := abs_sub_abs_le_abs_sub (lit x).value x.val
    rw [abs_sub_comm] at h3
    have h4 : (1 : ℚ) ≤ binary64.limit / 2 := limit_lo
    have h5 : eta ≤ eps := by
      unfold eta
      rw [eps_pow]
      exact zpow_le_zpow_right₀ (by norm_num) (by norm_num)
    generalize binary64.limit = M at *
    unfold eps at *
    linarith
  · right
    refine ⟨_, parse_num E hj (.inr (.inl rfl)) h1 rfl, rfl, hv.sign x hx hx', ?_⟩
    refine back_bound ?_ hb
    rw [signed_err, NumLit.abs_value]; exact h2

/-- **C17 fails in general.** `3e23` is the `f64` nearest to 3·10²³; if it is written as `3e23` (as the `ryu` crate does), it is read back as another
number. -/
theorem C17_not_exact (E : Env) (order : Nat → List (Bytes × Val) → List (Bytes × Val))
    (h : ryu (.fin false 8940696716308594 25) = str! "3e23") :
    RoundsTo binary64 (3 * 10 ^ 23) (.fin false 8940696716308594 25) ∧
    PrintsAs E order ryu .f64 (.f64 (.fin false 8940696716308594 25)) (str! "3e23") ∧
    parseAs E .f64 (str! "3e23") = some (.ok (.f64 (.fin false 8940696716308593 25))) := by
  refine ⟨?_, ?_, ?_⟩
  · have h1 := round_correct binary64_ok false (3 * 10 ^ 23) 1 (by omega)
    have e1 : signed false (3 * 10 ^ 23) 1 = 3 * 10 ^ 23 := by simp [signed]; norm_num
    have e2 : Flt.round binary64 false (3 * 10 ^ 23) 1 = .fin false 8940696716308594 25 := by decide +kernel
    rwa [e1, e2] at h1
  · rw [(prints_floats E order _).1]
    exact h.symm
  · have hw : NumLit.WF ⟨false, str! "3", none, some ⟨false, none, str! "23"⟩⟩ :=
      ⟨by decide, by decide, by simp, fun x h => by cases h; decide⟩
    have hl : De.f64FromParts true 3 23 = .ok (.fin false 8940696716308593 25) := by
      refine fromParts_of_loop (nn := true) ?_
      rw [De.f64Loop]
      decide +kernel
    have he : numEvent ⟨false, str! "3", none, some ⟨false, none, str! "23"⟩⟩ = .ok (.float (.fin false 8940696716308593 25)) := by
      have : numEvent ⟨false, str! "3", none, some ⟨false, none, str! "23"⟩⟩ = (De.f64FromParts true 3 23).map .float := by
        have hi : ¬ NumLit.isInt ⟨false, str! "3", none, some ⟨false, none, str! "23"⟩⟩ := by simp [NumLit.isInt]
        rw [(numEvent_float_ok hi (by decide)).1, sigExp_exact (by decide +kernel)]
        rw [expValue_eq _ _ (by decide +kernel) (by decide +kernel) (by decide +kernel) (by decide +kernel)]
        rfl
      rw [this, hl]; rfl
    exact parse_num E (num_text _ hw) (.inr (.inl rfl)) he rfl

/-! ## C32 -/

/-- **C32.** `to_string` writes `null` exactly for the non-finite floats, and a JSON number for the finite ones. -/
theorem C32_floats (E : Env) (order : Nat → List (Bytes × Val) → List (Bytes × Val)) (hr : RyuSyntax ryu lit) (t : Ty) (v : Val) (x : F64)
    (hx : (t = .f64 ∧ v = .f64 x) ∨ ((t = .number ∨ t = .value) ∧ v = .numF x)) (o : Bytes) (ho : PrintsAs E order ryu t v o) :
    (o = str! "null" ↔ x.isFinite = false) ∧ (x.isFinite = true → o = (lit x).text ∧ JText o (.num (lit x))) := by
  obtain ⟨h1, -, h2, h3⟩ := prints_floats (ryu := ryu) E order o
  have ho' : o = if x.isFinite then ryu x else str! "null" := by
    rcases hx with ⟨rfl, rfl⟩ | ⟨rfl | rfl, rfl⟩
    · exact (h1 x).1 ho
    · exact (h2 x).1 ho
    · exact (h3 x).1 ho
  have hne : x.isFinite = true → ryu x ≠ str! "null" := by
    intro hf he
    rw [hr.text x hf] at he
    have hw := (hr.wf x hf).int_digits
    unfold NumLit.text at he
    cases hm : (lit x).minus <;> rw [hm] at he
    · cases hi : (lit x).int with
      | nil => exact hw.1 hi
      | cons c cs =>
        rw [hi] at he
        simp only [Bool.false_eq_true, if_false, List.nil_append, List.cons_append] at he
        have : c = 0x6E := (List.cons.inj he).1
        subst this
        exact absurd (hw.2 _ (by rw [hi]; exact List.mem_cons_self)) (by decide)
    · simp only [if_true, List.cons_append] at he
      exact absurd (List.cons.inj he).1 (by decide)
  cases hf : x.isFinite
  · rw [hf] at ho'
    exact ⟨⟨fun _ => rfl, fun _ => ho'⟩, fun h => by cases h⟩
  · rw [hf, if_pos rfl] at ho'
    refine ⟨⟨fun h => absurd (ho' ▸ h) (hne hf), fun h => by cases h⟩, fun _ => ?_⟩
    rw [hr.text x hf] at ho'
    exact ⟨ho', ho' ▸ num_text _ (hr.wf x hf)⟩

/-- **C32, C40.** The same for `f32`: it is widened exactly, and the widened number is written. -/
theorem C32_f32 (E : Env) (order : Nat → List (Bytes × Val) → List (Bytes × Val)) (hr : RyuSyntax ryu lit) (x : F32) (hx : x.Valid binary32)
    (o : Bytes) (ho : PrintsAs E order ryu .f32 (.f32 x) o) :
    ∃ y : F64, y.isFinite = x.isFinite ∧ y.val = x.val ∧ y.sign = x.sign ∧ y.Valid binary64 ∧ PrintsAs E order ryu .f64 (.f64 y) o ∧
      (o = str! "null" ↔ x.isFinite = false) := by
  have hy : (x.cast binary64).isFinite = x.isFinite ∧ (x.cast binary64).val = x.val ∧ (x.cast binary64).sign = x.sign ∧
      (x.cast binary64).Valid binary64 := by
    match x, hx with
    | .nan, _ => exact ⟨rfl, rfl, rfl, trivial⟩
    | .inf _, _ => exact ⟨rfl, rfl, rfl, trivial⟩
    | .fin s m e, hx =>
      obtain ⟨m', e', h1, h2, h3⟩ := widen hx
      rw [h1]
      refine ⟨rfl, ?_, rfl, h2⟩
      simp only [Flt.val, h3]
  have hp : PrintsAs E order ryu .f64 (.f64 (x.cast binary64)) o := by
    rw [(prints_floats E order o).1]
    exact ((prints_floats E order o).2.1 x).1 ho
  refine ⟨_, hy.1, hy.2.1, hy.2.2.1, hy.2.2.2, hp, ?_⟩
  rw [← hy.1]
  exact (C32_floats E order hr .f64 _ _ (.inl ⟨rfl, rfl⟩) o hp).1

/-! ## C40 -/

/-- **C40.** The two formats are those of IEEE 754: the largest finite numbers, and the smallest positive ones. -/
theorem C40_formats :
    (binary64.max = (2 ^ 53 - 1) * 2 ^ (971 : ℤ) ∧ binary64.Has (2 ^ (-1074 : ℤ)) ∧ ∀ q, binary64.Has q → 0 < q → 2 ^ (-1074 : ℤ) ≤ q) ∧
    (binary32.max = (2 ^ 24 - 1) * 2 ^ (104 : ℤ) ∧ binary32.Has (2 ^ (-149 : ℤ)) ∧ ∀ q, binary32.Has q → 0 < q → 2 ^ (-149 : ℤ) ≤ q) := by
  have key : ∀ (f : Fmt) (q : ℚ), f.Has q → 0 < q → (2 : ℚ) ^ f.emin ≤ q := by
    rintro f q ⟨m, e, -, h1, -, h⟩ hq
    have hp : (0 : ℚ) < 2 ^ e := zpow_pos (by norm_num) _
    have hpe : (2 : ℚ) ^ f.emin ≤ 2 ^ e := zpow_le_zpow_right₀ (by norm_num) h1
    have hm0 : (0 : ℚ) ≤ m := Nat.cast_nonneg m
    rcases h with rfl | rfl
    · have hm : 1 ≤ m := by
        rcases Nat.eq_zero_or_pos m with rfl | h
        · simp at hq
        · exact h
      have hm' : (1 : ℚ) ≤ m := by exact_mod_cast hm
      calc (2 : ℚ) ^ f.emin ≤ 1 * 2 ^ e := by rw [one_mul]; exact hpe
        _ ≤ m * 2 ^ e := mul_le_mul_of_nonneg_right hm' hp.le
    · have := mul_nonneg hm0 hp.le
      linarith
  refine ⟨⟨rfl, ⟨1, -1074, by decide, by decide, by decide, .inl (by simp)⟩, key binary64⟩,
    ⟨rfl, ⟨1, -149, by decide, by decide, by decide, .inl (by simp)⟩, key binary32⟩⟩

/-- **C40.** `from_str::<f32>` and `from_str::<f64>` succeed exactly when `from_str::<Number>` does, and give that number, rounded to nearest. -/
theorem C40_rounding (E : Env) (s : Bytes) :
    ((∃ n, parseAs E .number s = some (.ok n)) ↔ ∃ v, parseAs E .f32 s = some (.ok v)) ∧
    ((∃ n, parseAs E .number s = some (.ok n)) ↔ ∃ v, parseAs E .f64 s = some (.ok v)) ∧
    ∀ n, parseAs E .number s = some (.ok n) →
      (∃ y, parseAs E .f32 s = some (.ok (.f32 y)) ∧ RoundsTo binary32 n.numVal y) ∧
      (∃ x, parseAs E .f64 s = some (.ok (.f64 x)) ∧ RoundsTo binary64 n.numVal x ∧ ∀ x', n = .numF x' → x = x') := by
  have dec : ∀ {l ev}, numEvent l = .ok ev → (∃ v, decodeNum ev .f32 = some v) ∧ (∃ v, decodeNum ev .f64 = some v) ∧
      (∃ v, decodeNum ev .number = some v) := by
    intro l ev h
    rcases numEvent_range h with ⟨n, rfl, -⟩ | ⟨z, rfl, -⟩ | ⟨m, e, rfl, -⟩ <;> exact ⟨⟨_, rfl⟩, ⟨_, rfl⟩, ⟨_, rfl⟩⟩
  have main : ∀ n, parseAs E .number s = some (.ok n) →
      (∃ y, parseAs E .f32 s = some (.ok (.f32 y)) ∧ RoundsTo binary32 n.numVal y) ∧
      (∃ x, parseAs E .f64 s = some (.ok (.f64 x)) ∧ RoundsTo binary64 n.numVal x ∧ ∀ x', n = .numF x' → x = x') := by
    intro n h
    obtain ⟨l, ev, hj, he, hd⟩ := parse_num_only E (.inr (.inr rfl)) h
    obtain ⟨⟨v1, d1⟩, ⟨v2, d2⟩, -⟩ := dec he
    obtain ⟨y, rfl, hy⟩ := decode_f32 (numEvent_inRange he) d1
    obtain ⟨x, rfl, hx⟩ := decode_f64 (numEvent_inRange he) d2
    rw [decode_number hd]
    refine ⟨⟨y, parse_num E hj (.inl rfl) he d1, hy⟩, ⟨x, parse_num E hj (.inr (.inl rfl)) he d2, hx, ?_⟩⟩
    rintro x' rfl
    cases ev <;> cases hd
    cases d2
    rfl
  refine ⟨⟨?_, ?_⟩, ⟨?_, ?_⟩, main⟩ <;> rintro ⟨n, h⟩
  · obtain ⟨⟨y, hy, -⟩, -⟩ := main n h; exact ⟨_, hy⟩
  · obtain ⟨l, ev, hj, he, hd⟩ := parse_num_only E (.inl rfl) h
    obtain ⟨-, -, ⟨n, hn⟩⟩ := dec he
    exact ⟨n, parse_num E hj (.inr (.inr (.inl rfl))) he hn⟩
  · obtain ⟨-, ⟨y, hy, -⟩⟩ := main n h; exact ⟨_, hy⟩
  · obtain ⟨l, ev, hj, he, hd⟩ := parse_num_only E (.inr (.inl rfl)) h
    obtain ⟨-, -, ⟨n, hn⟩⟩ := dec he
    exact ⟨n, parse_num E hj (.inr (.inr (.inl rfl))) he hn⟩

/-- **C40.** An `f32` is infinite exactly when the delivered number is beyond the range of `f32`. -/
theorem C40_infinite (E : Env) (s : Bytes) (n : Val) (y : F32) (hn : parseAs E .number s = some (.ok n))
    (hy : parseAs E .f32 s = some (.ok (.f32 y))) : y.isFinite = false ↔ binary32.limit ≤ |n.numVal| := by
  obtain ⟨⟨y', h1, h2⟩, -⟩ := (C40_rounding E s).2.2 n hn
  rw [hy] at h1
  cases h1
  cases h2 with
  | inf hl => exact ⟨fun _ => hl, fun _ => rfl⟩
  | fin hv hl => exact ⟨fun h => (by cases h), fun h => absurd h (not_le.2 hl)⟩

/-! ## C42 -/

theorem f32_bound {L y x U : ℚ} (h1 : |y - L| ≤ 6 * eps * |L| + 2 * eta) (h2 : |x - L| ≤ eps * |L| + eta) (h3 : |x| ≤ 16777216 * U)
    (h4 : eta ≤ eps * U) (hU : 0 < U) : |y - x| < 1 / 4 * U := by
  have := back_bound h1 h2
  unfold eps at *
  linarith

set_option exponentiation.threshold 3000 in
theorem f32_no_overflow {L x : ℚ} (h2 : |x - L| ≤ eps * |L| + eta) (h3 : |x| ≤ 2 ^ (128 : Nat)) : |L| < binary64.limit * (1 - 4 * eps) := by
  have hη : eta ≤ 1 := by unfold eta; exact zpow_le_one_of_nonpos₀ (by norm_num) (by norm_num)
  have h4 := abs_sub_abs_le_abs_sub L x
  rw [abs_sub_comm L x] at h4
  have h5 : |L| ≤ 2 ^ (130 : Nat) := by
    unfold eps at *
    norm_num at h3 ⊢
    linarith
  refine lt_of_le_of_lt h5 ?_
  unfold Fmt.limit binary64 eps; norm_num

/-- **C42.** Every finite `f32` is read back exactly as it was written, for every printer that is correct for `f64`. -/
theorem C42_f32_round_trip (E : Env) (order : Nat → List (Bytes × Val) → List (Bytes × Val)) (hr : RyuSyntax ryu lit) (hv : RyuRounds lit)
    (x : F32) (hx : x.isFinite = true) (hx' : x.Valid binary32) (o : Bytes) (ho : PrintsAs E order ryu .f32 (.f32 x) o) :
    parseAs E .f32 o = some (.ok (.f32 x)) := by
  obtain ⟨s, m, e, rfl⟩ : ∃ s m e, x = .fin s m e := by
    match x, hx with
    | .fin s m e, _ => exact ⟨s, m, e, rfl⟩
  obtain ⟨m', e', hc, hw, hval⟩ := widen hx'
  have hyf : (Flt.fin s m' e').isFinite = true := rfl
  have hvv : (Flt.fin s m' e').val = (Flt.fin s m e).val := by simp only [Flt.val, hval]
  have ho' := ((prints_floats E order o).2.1 _).1 ho
  rw [hc, if_pos hyf, hr.text _ hyf] at ho'
  subst ho'
  generalize hl : lit (.fin s m' e') = l at *
  have hwf : l.WF := hl ▸ hr.wf _ hyf
  have hj := num_text l hwf
  have hi : ¬ l.isInt := by
    rintro ⟨-, h3, h4⟩
    rcases hr.notInt _ hyf with h | h <;> rw [hl] at h
    · exact h h3
    · exact h h4
  have hlen : l.text.length ≤ 2147482700 := hl ▸ hv.short _ hyf hw
  have hsg : l.minus = s := hl ▸ hv.sign _ hyf hw
  have hb := (hv.value _ hyf hw).bound64 hyf
  rw [hl, hvv] at hb
  have hm : (m : ℚ) ≤ 16777216 := by
    have : m < 2 ^ 24 := hx'.1
    have : (m : ℚ) < 2 ^ 24 := by exact_mod_cast this
    norm_num at this ⊢; linarith
  have hU := two_zpow_pos e
  have hx3 : |(Flt.fin s m e).val| ≤ 16777216 * 2 ^ e := by
    rw [Flt.val_abs]; exact mul_le_mul_of_nonneg_right hm hU.le
  have hemin : (-149 : Int) ≤ e := hx'.2.1
  have hemax : e ≤ 104 := hx'.2.2.1
  rcases numEvent_near hwf hi hlen with ⟨h1, h2⟩ | ⟨n, k, h1, hv', h2⟩
  · exfalso
    rw [← NumLit.abs_value] at h2
    refine absurd h2 (not_le.2 (f32_no_overflow hb ?_))
    refine le_trans hx3 ?_
    have : (2 : ℚ) ^ e ≤ 2 ^ (104 : Int) := zpow_le_zpow_right₀ (by norm_num) hemax
    calc (16777216 : ℚ) * 2 ^ e ≤ 16777216 * 2 ^ (104 : Int) := mul_le_mul_of_nonneg_left this (by norm_num)
      _ ≤ _ := by norm_num
  · refine parse_num E hj (.inl rfl) h1 ?_
    show some (Val.f32 (Flt.cast binary32 (.fin l.minus n k))) = _
    have hcr := cast_rounds binary32_ok l.minus n k
    have hco := cast_outcome binary32_ok l.minus n k
    have hys : (Flt.cast binary32 (.fin l.minus n k)).sign = s := by
      rw [← hsg]
      generalize Flt.cast binary32 (.fin l.minus n k) = y at hco
      cases hco <;> rfl
    have e2 : (2 : ℚ) ^ (e - 2) = 1 / 4 * 2 ^ e := by
      rw [zpow_sub₀ (by norm_num)]; norm_num; ring
    have hη : eta ≤ eps * 2 ^ e := by
      rw [eps_pow, ← zpow_add₀ (by norm_num)]
      exact zpow_le_zpow_right₀ (by norm_num) (by omega)
    have := round_back binary32_ok hx' (q := (Flt.fin l.minus n k).val) (by
      rw [e2]
      refine f32_bound (L := l.value) ?_ hb hx3 hη hU
      rw [signed_err, NumLit.abs_value]; exact h2) hcr hys
    rw [this]

end

/-! ## C41 -/

/-- **C41.** What `from_str` returns is a value of the type: integers in range, floats of the format, strings and map keys UTF-8, arrays of the right
length, maps without repeated keys and sorted if ordered, all fields present, existing variants. -/
theorem C41_type_sound (E : Env) (hE : E.Lawful) (t : Ty) (ht : t.Small) (s : Bytes) (hs : ValidUtf8 s) (v : Val)
    (h : parseAs E t s = some (.ok v)) : HasTy E t v := by
  obtain ⟨j, hj, hd⟩ := (parseAs_ok E).1 h
  exact decode_hasTy hE (jtext_utf8 hj hs) ht hd

/-- **C41.** Hence what was read can always be written again, without panic. -/
theorem C41_read_then_write (E : Env) (hE : E.Lawful) (hu : E.Utf8) (order : Nat → List (Bytes × Val) → List (Bytes × Val))
    (ho : ∀ n ms, (order n ms).Perm ms) (ryu : F64 → Bytes) (lit : F64 → NumLit) (hr : RyuSyntax ryu lit)
    (t : Ty) (ht : t.Small) (s : Bytes) (hs : ValidUtf8 s) (v : Val) (h : parseAs E t s = some (.ok v)) :
    ∃ o, PrintsAs E order ryu t v o ∧ ValidUtf8 o ∧ ∃ j, JText o j := by
  obtain ⟨o, h', hp, -, -, x, -, hj, -, hv⟩ := C28_total E order ho hu hr t v (C41_type_sound E hE t ht s hs v h)
  exact ⟨o, ⟨h', hp⟩, hv, _, hj⟩

theorem exEnv_lawful : exEnv.Lawful where
  keyLt _ := strLt_linear
  keyShow _ s a hs h := by cases h; exact hs
  small i f hf := by
    match i with
    | 0 =>
      simp only [exEnv, List.mem_cons, List.not_mem_nil, or_false] at hf
      rcases hf with rfl | rfl | rfl
      · show 32 ≤ 64; omega
      · trivial
      · trivial
    | _ + 1 => simp [exEnv] at hf

/-- `{"y":[1],"x":1,"x":1}` read as a `Point`. -/
example (v : Val) (h : parseAs exEnv (.strct 0) exObj = some (.ok v)) : HasTy exEnv (.strct 0) v :=
  C41_type_sound exEnv exEnv_lawful (.strct 0) trivial _ (valid_ascii (by decide)) v h

/-- The largest `f32`, printed exactly, is read back. -/
example (o : Bytes) (ho : PrintsAs exEnv exOrder (fun x => (exLit x).text) .f32 (.f32 (.fin false 16777215 104)) o) :
    parseAs exEnv .f32 o = some (.ok (.f32 (.fin false 16777215 104))) :=
  C42_f32_round_trip exEnv exOrder exRyu exRyuRounds (.fin false 16777215 104) rfl (by unfold Flt.Valid; decide) o ho

end Miniserde
