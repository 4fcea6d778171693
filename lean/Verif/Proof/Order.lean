import Verif.Spec.Order
import Verif.Proof.FloatApi

/-!
# Monotonicity of rounding and of the number conversion
-/

namespace Miniserde

theorem RoundsTo.mono_val {f : Fmt} {r r' : ℚ} {s s' : Bool} {m m' : Nat} {e e' : Int} (hf : f.Ok)
    (h : RoundsTo f r (.fin s m e)) (h' : RoundsTo f r' (.fin s' m' e')) (hr : r ≤ r') :
    (Flt.fin s m e).val ≤ (Flt.fin s' m' e').val := by
  rcases eq_or_lt_of_le hr with rfl | hlt
  · exact le_of_eq (h.val_unique hf h')
  · by_contra hc
    rw [not_le] at hc
    have hv : f.Has (Flt.fin s m e).val := by
      cases h with | fin hv _ _ _ _ _ => exact valid_has hv
    have hv' : f.Has (Flt.fin s' m' e').val := by
      cases h' with | fin hv _ _ _ _ _ => exact valid_has hv
    have h1 : |(Flt.fin s m e).val - r| ≤ |(Flt.fin s' m' e').val - r| := by
      cases h with | fin _ _ near _ _ _ => exact near _ hv'
    have h2 : |(Flt.fin s' m' e').val - r'| ≤ |(Flt.fin s m e).val - r'| := by
      cases h' with | fin _ _ near _ _ _ => exact near _ hv
    generalize (Flt.fin s m e).val = x at *
    generalize (Flt.fin s' m' e').val = y at *
    rcases abs_cases (x - r) with ⟨a1, a2⟩ | ⟨a1, a2⟩ <;> rcases abs_cases (y - r) with ⟨b1, b2⟩ | ⟨b1, b2⟩ <;>
    rcases abs_cases (y - r') with ⟨c1, c2⟩ | ⟨c1, c2⟩ <;> rcases abs_cases (x - r') with ⟨d1, d2⟩ | ⟨d1, d2⟩ <;> linarith

/-- Rounding is monotone. -/
theorem RoundsTo.mono {f : Fmt} {r r' : ℚ} {x x' : Flt} (hf : f.Ok) (h : RoundsTo f r x) (h' : RoundsTo f r' x') (hr : r ≤ r') : x.Le x' := by
  have hL := Fmt.limit_pos (f := f)
  cases x with
  | nan => cases h
  | inf s =>
    cases s with
    | true => cases x' with
      | nan => cases h'
      | inf s' => cases s' <;> simp [Flt.Le]
      | fin s' m' e' => simp [Flt.Le]
    | false =>
      have h1 : f.limit ≤ r := by
        cases h with | inf hl pos neg =>
          rcases le_or_gt 0 r with h0 | h0
          · rwa [abs_of_nonneg h0] at hl
          · cases neg h0
      cases x' with
      | nan => cases h'
      | inf s' =>
        cases s' with
        | false => simp [Flt.Le]
        | true => cases h' with | inf hl pos neg => cases pos (by linarith)
      | fin s' m' e' =>
        cases h' with | fin _ hl _ _ _ _ => rw [abs_of_nonneg (by linarith)] at hl; linarith
  | fin s m e =>
    cases x' with
    | nan => cases h'
    | inf s' =>
      cases s' with
      | false => simp [Flt.Le]
      | true =>
        exfalso
        have h1 : r' ≤ -f.limit := by
          cases h' with | inf hl pos neg =>
            rcases le_or_gt r' 0 with h0 | h0
            · rw [abs_of_nonpos h0] at hl; linarith
            · cases pos h0
        cases h with | fin _ hl _ _ _ _ => rw [abs_of_nonpos (by linarith)] at hl; linarith
    | fin s' m' e' => exact h.mono_val hf h' hr

/-! ## The loop over the table of powers -/

/-- A valid nonnegative finite `f64`. -/
def Flt.Pos (x : F64) : Prop := ∃ m e, x = .fin false m e ∧ x.Valid binary64

theorem Flt.Pos.val_nonneg {x : F64} (h : x.Pos) : 0 ≤ x.val := by
  obtain ⟨m, e, rfl, -⟩ := h
  simp only [Flt.val, Bool.false_eq_true, if_false, one_mul]
  positivity

theorem Flt.Pos.self {x : F64} (h : x.Pos) : RoundsTo binary64 x.val x := by
  obtain ⟨m, e, rfl, hv⟩ := h
  exact RoundsTo.self hv

theorem Flt.Pos.val_le {r r' : ℚ} {x y : F64} (hx : x.Pos) (hy : y.Pos) (h : RoundsTo binary64 r x) (h' : RoundsTo binary64 r' y) (hr : r ≤ r') :
    x.val ≤ y.val := by
  obtain ⟨m, e, rfl, hv⟩ := hx
  obtain ⟨m', e', rfl, hv'⟩ := hy
  exact h.mono_val binary64_ok h' hr

theorem Flt.Pos.zero {x : F64} (h : x.Pos) : x.isZero = true ↔ x.val = 0 := by
  obtain ⟨m, e, rfl, -⟩ := h
  have := (two_zpow_pos e).ne'
  simp [Flt.isZero, Flt.val, this]

theorem outcome_pos {r : ℚ} {x : F64} (h : Outcome binary64 false r x) : x = .inf false ∨ x.Pos := by
  cases h with
  | inf h => exact .inl rfl
  | fin hv hl h => exact .inr ⟨_, _, rfl, hv⟩

theorem ofNat_pos {n : Nat} (hn : n ≤ u64Max) : (Flt.ofNat binary64 n).Pos := by
  have h := ofNat_outcome binary64_ok n
  rcases outcome_pos h with e | h'
  · rw [e] at h
    cases h with | inf h =>
      have h1 := u64_lt_limit
      have h2 : (n : ℚ) ≤ (u64Max : ℚ) := by exact_mod_cast hn
      have h3 : (u64Max : ℚ) ≤ 2 ^ (66 : Int) := by unfold u64Max; norm_num
      linarith
  · exact h'

theorem pow10_pos {k : Nat} (h : k < 309) : ∃ p q, Flt.pow10Lit k = .fin false p q ∧ p ≠ 0 ∧ 1 ≤ (Flt.fin false p q).val := by
  obtain ⟨p, q, e, hp, -⟩ := pow10_near h
  refine ⟨p, q, e, hp, ?_⟩
  have h1 : RoundsTo binary64 ((10 ^ k : Nat) : ℚ) (Flt.pow10Lit k) := ofNat_rounds binary64_ok (10 ^ k)
  rw [e] at h1
  have h2 : RoundsTo binary64 ((1 : Nat) : ℚ) (Flt.ofNat binary64 1) := ofNat_rounds binary64_ok 1
  have e2 : Flt.ofNat binary64 1 = .fin false 4503599627370496 (-52) := by decide +kernel
  rw [e2] at h2
  have h3 := h2.mono_val binary64_ok h1 (by exact_mod_cast Nat.one_le_pow _ _ (by omega))
  refine le_trans (le_of_eq ?_) h3
  simp only [Flt.val, Bool.false_eq_true, if_false, one_mul]
  norm_num

theorem mul_mono {x y p : F64} (hx : x.Pos) (hy : y.Pos) {m : Nat} {e : Int} (hp : p = .fin false m e) (h : x.val ≤ y.val)
    (hf : (Flt.mul binary64 y p).isInfinite = false) :
    (Flt.mul binary64 x p).Pos ∧ (Flt.mul binary64 y p).Pos ∧ (Flt.mul binary64 x p).val ≤ (Flt.mul binary64 y p).val := by
  subst hp
  obtain ⟨mx, ex, rfl, hvx⟩ := hx
  obtain ⟨my, ey, rfl, hvy⟩ := hy
  have h1 := mul_rounds binary64_ok false false mx m ex e
  have h2 := mul_rounds binary64_ok false false my m ey e
  have h3 := outcome_pos (mul_outcome binary64_ok false false mx m ex e)
  have h4 := outcome_pos (mul_outcome binary64_ok false false my m ey e)
  have hp : (0 : ℚ) ≤ (Flt.fin false m e).val := by
    simp only [Flt.val, Bool.false_eq_true, if_false, one_mul]; positivity
  have hle := mul_le_mul_of_nonneg_right h hp
  have hm := h1.mono binary64_ok h2 hle
  rcases h4 with h4 | h4
  · rw [h4] at hf; cases hf
  · rcases h3 with h3 | h3
    · rw [h3] at hm
      obtain ⟨a, b, e4, -⟩ := h4
      rw [e4] at hm
      exact hm.elim
    · exact ⟨h3, h4, h3.val_le h4 h1 h2 hle⟩

theorem div_mono {x y p : F64} (hx : x.Pos) (hy : y.Pos) {m : Nat} {e : Int} (hp : p = .fin false m e) (hm0 : m ≠ 0) (hp1 : 1 ≤ p.val) (h : x.val ≤ y.val) :
    (Flt.div binary64 x p).Pos ∧ (Flt.div binary64 y p).Pos ∧ (Flt.div binary64 x p).val ≤ (Flt.div binary64 y p).val := by
  subst hp
  have key : ∀ z : F64, z.Pos → (Flt.div binary64 z (.fin false m e)).Pos := by
    intro z hz
    have h0 := hz.val_nonneg
    have hs := hz.self
    obtain ⟨mz, ez, rfl, hvz⟩ := hz
    have h1 := div_rounds binary64_ok false false mz m ez e hm0
    rcases outcome_pos (div_outcome binary64_ok false false mz m ez e hm0) with h3 | h3
    · have := h1.mono binary64_ok hs (div_le_self h0 hp1)
      rw [h3] at this
      exact this.elim
    · exact h3
  have kx := key x hx
  have ky := key y hy
  refine ⟨kx, ky, ?_⟩
  obtain ⟨mx, ex, rfl, hvx⟩ := hx
  obtain ⟨my, ey, rfl, hvy⟩ := hy
  exact kx.val_le ky (div_rounds binary64_ok false false mx m ex e hm0) (div_rounds binary64_ok false false my m ey e hm0)
    (div_le_div_of_nonneg_right h (by linarith))

/-- The scaling loop is monotone in the number it scales. -/
theorem f64Loop_mono (N : Nat) : ∀ {x y : F64} (E : Int), E.natAbs ≤ N → x.Pos → y.Pos → x.val ≤ y.val → ∀ {y' : F64}, De.f64Loop y E = .ok y' →
    ∃ x', De.f64Loop x E = .ok x' ∧ x'.Pos ∧ y'.Pos ∧ x'.val ≤ y'.val := by
  induction N with
  | zero =>
    intro x y E hE hx hy h y' hl
    have h0 : E.natAbs < 309 := by omega
    rw [De.f64Loop, POW10_some h0] at hl ⊢
    obtain ⟨p, q, e, hp, hp1⟩ := pow10_pos h0
    simp only [ge_iff_le] at hl ⊢
    rw [if_pos (by omega)] at hl ⊢
    cases hi : (Flt.mul binary64 y (Flt.pow10Lit E.natAbs)).isInfinite with
    | true => rw [hi] at hl; cases hl
    | false =>
      rw [hi] at hl; cases hl
      obtain ⟨h1, h2, h3⟩ := mul_mono hx hy e h hi
      refine ⟨_, ?_, h1, h2, h3⟩
      have : (Flt.mul binary64 x (Flt.pow10Lit E.natAbs)).isInfinite = false := by
        obtain ⟨a, b, e1, -⟩ := h1; rw [e1]; rfl
      rw [this]; rfl
  | succ N ih =>
    intro x y E hE hx hy h y' hl
    by_cases h0 : E.natAbs < 309
    · rw [De.f64Loop, POW10_some h0] at hl ⊢
      obtain ⟨p, q, e, hp, hp1⟩ := pow10_pos h0
      simp only [ge_iff_le] at hl ⊢
      by_cases hE0 : 0 ≤ E
      · rw [if_pos hE0] at hl ⊢
        cases hi : (Flt.mul binary64 y (Flt.pow10Lit E.natAbs)).isInfinite with
        | true => rw [hi] at hl; cases hl
        | false =>
          rw [hi] at hl; cases hl
          obtain ⟨h1, h2, h3⟩ := mul_mono hx hy e h hi
          refine ⟨_, ?_, h1, h2, h3⟩
          have : (Flt.mul binary64 x (Flt.pow10Lit E.natAbs)).isInfinite = false := by
            obtain ⟨a, b, e1, -⟩ := h1; rw [e1]; rfl
          rw [this]; rfl
      · rw [if_neg hE0] at hl ⊢
        cases hl
        obtain ⟨h1, h2, h3⟩ := div_mono hx hy e hp (by rw [e]; exact hp1) h
        exact ⟨_, rfl, h1, h2, h3⟩
    · rw [De.f64Loop, POW10_none h0] at hl ⊢
      simp only [ge_iff_le] at hl ⊢
      have hzx := hx.zero
      have hzy := hy.zero
      have hx0 := hx.val_nonneg
      have hy0 := hy.val_nonneg
      cases zy : y.isZero with
      | true =>
        have hv := hzy.1 zy
        have zx : x.isZero = true := hzx.2 (by linarith)
        rw [zy] at hl; cases hl
        rw [zx]
        exact ⟨_, rfl, hx, hy, h⟩
      | false =>
        rw [zy] at hl
        by_cases hE0 : 0 ≤ E
        · simp [hE0] at hl
        · rw [if_neg (by simp), dif_neg hE0] at hl
          by_cases hE2 : E + 308 < 0
          · rw [dif_pos hE2] at hl
            obtain ⟨p, q, e, hp, hp1⟩ := pow10_pos (k := 308) (by omega)
            obtain ⟨h1, h2, h3⟩ := div_mono hx hy e hp (by rw [e]; exact hp1) h
            obtain ⟨x', hx', a1, a2, a3⟩ := ih (E + 308) (by omega) h1 h2 h3 hl
            cases zx : x.isZero with
            | true => exact ⟨x, rfl, hx, a2, by rw [hzx.1 zx]; exact a2.val_nonneg⟩
            | false =>
              rw [if_neg (by simp), dif_neg hE0, dif_pos hE2]
              exact ⟨x', hx', a1, a2, a3⟩
          · rw [dif_neg hE2] at hl; cases hl

/-! ## The exponent part -/

theorem expValue_sign (nn : Bool) (n : Nat) (st : Int) (xo : Option ExpPart) :
    expValue nn n st xo = (expValue true n st xo).map fun f => if nn then f else f.neg := by
  have key : ∀ E, De.f64FromParts nn n E = (De.f64FromParts true n E).map fun f => if nn then f else f.neg := by
    intro E
    unfold De.f64FromParts
    cases De.f64Loop (Flt.ofNat binary64 n) E <;> rfl
  cases xo with
  | none => exact key st
  | some x =>
    unfold expValue
    simp only
    split
    · split
      · rfl
      · cases nn <;> rfl
    · exact key _

/-- The meaning of the exponent part depends only on its value. -/
theorem expValue_some (n : Nat) (st : Int) (x : ExpPart) :
    expValue true n st (some x) =
      if 2147483647 < x.value then (if n ≠ 0 then .err else .ok (.fin false 0 binary64.emin))
      else if x.value < -2147483647 then .ok (.fin false 0 binary64.emin)
      else De.f64FromParts true n (satI32 (st + x.value)) := by
  unfold expValue
  simp only
  have e0 : digitsFrom 0 x.digits = digitsVal x.digits := rfl
  by_cases hfit : digitsVal x.digits ≤ 2147483647
  · rw [accum_exact (by rw [e0]; exact hfit), e0]
    have hb : -2147483647 ≤ x.value ∧ x.value ≤ 2147483647 := by unfold ExpPart.value; split <;> omega
    rw [if_neg (by simp), if_neg (show ¬ 2147483647 < x.value by omega), if_neg (show ¬ x.value < -2147483647 by omega)]
    congr 2
    unfold ExpPart.value
    by_cases hs : x.sign = some true
    · simp [hs]; ring
    · simp [hs]
  · rw [if_pos (accum_over (bound := 2147483647) (acc := 0) (ds := x.digits) (by rw [e0]; omega) (by omega))]
    by_cases hs : x.sign = some true
    · have ev : x.value = -(digitsVal x.digits : Int) := by unfold ExpPart.value; rw [if_pos hs]
      rw [if_neg (by simp [hs]), if_neg (by omega), if_pos (by omega)]; rfl
    · have ev : x.value = (digitsVal x.digits : Int) := by unfold ExpPart.value; rw [if_neg hs]
      rw [if_pos (show 2147483647 < x.value by omega)]
      simp [hs]

theorem expValue_congr {n : Nat} {st : Int} {xo xo' : Option ExpPart} (h : xo.map ExpPart.value = xo'.map ExpPart.value) :
    expValue true n st xo = expValue true n st xo' := by
  cases xo with
  | none => cases xo' with
    | none => rfl
    | some x => cases h
  | some x => cases xo' with
    | none => cases h
    | some x' =>
      have : x.value = x'.value := by simpa using h
      rw [expValue_some, expValue_some, this]

theorem zero_pos : (Flt.fin false 0 binary64.emin).Pos := ⟨0, _, rfl, zero_valid⟩

theorem expValue_mono {n n' : Nat} (h : n ≤ n') (hn' : n' ≤ u64Max) {st : Int} {xo : Option ExpPart} {y : F64} (hy : expValue true n' st xo = .ok y) :
    ∃ x, expValue true n st xo = .ok x ∧ x.Pos ∧ y.Pos ∧ x.val ≤ y.val := by
  have key : ∀ E {y : F64}, De.f64FromParts true n' E = .ok y → ∃ x, De.f64FromParts true n E = .ok x ∧ x.Pos ∧ y.Pos ∧ x.val ≤ y.val := by
    intro E y hy
    unfold De.f64FromParts at hy ⊢
    cases hl : De.f64Loop (Flt.ofNat binary64 n') E with
    | ok y' =>
      rw [hl] at hy; cases hy
      have p1 := ofNat_pos (le_trans h hn')
      have p2 := ofNat_pos hn'
      obtain ⟨x', hx', a⟩ := f64Loop_mono _ E (le_refl _) p1 p2
        (p1.val_le p2 (ofNat_rounds binary64_ok n) (ofNat_rounds binary64_ok n') (by exact_mod_cast h)) hl
      exact ⟨x', by rw [hx']; rfl, a⟩
    | err => rw [hl] at hy; cases hy
    | panic => rw [hl] at hy; cases hy
  cases xo with
  | none => exact key st hy
  | some x =>
    rw [expValue_some] at hy ⊢
    by_cases h1 : 2147483647 < x.value
    · rw [if_pos h1] at hy ⊢
      by_cases h0 : n' = 0
      · rw [if_neg (by omega)] at hy ⊢
        cases hy
        exact ⟨_, rfl, zero_pos, zero_pos, le_refl _⟩
      · rw [if_pos h0] at hy; cases hy
    · rw [if_neg h1] at hy ⊢
      by_cases h2 : x.value < -2147483647
      · rw [if_pos h2] at hy ⊢
        cases hy
        exact ⟨_, rfl, zero_pos, zero_pos, le_refl _⟩
      · rw [if_neg h2] at hy ⊢
        exact key _ hy

/-! ## Literals -/

theorem map_ok_inv {α β : Type} {f : α → β} {r : Res α} {b : β} (h : r.map f = .ok b) : ∃ a, r = .ok a ∧ b = f a := by
  cases r with
  | ok a => cases h; exact ⟨a, rfl, rfl⟩
  | err => cases h
  | panic => cases h

/-- A literal with fraction or exponent whose digits fit is the signed scaled integer. -/
theorem numEvent_scaled {l : NumLit} (hi : ¬ l.isInt) (hlen : l.text.length < 2 ^ 31) (hd : l.digits ≤ u64Max) :
    numEvent l = (expValue true l.digits (-(l.fracLen : Int)) l.exp).map fun f => .float (if l.minus then f.neg else f) := by
  rw [(numEvent_float_ok hi hlen).1, sigExp_exact hd, expValue_sign]
  cases expValue true l.digits (-(l.fracLen : Int)) l.exp with
  | ok f => cases l.minus <;> rfl
  | err => rfl
  | panic => rfl

theorem neg_val (x : Flt) : x.neg.val = -x.val := by
  cases x with
  | nan => simp [Flt.neg, Flt.val]
  | inf s => simp [Flt.neg, Flt.val]
  | fin s m e => cases s <;> simp [Flt.neg, Flt.val]

theorem NumLit.SameLayout.symm {l l' : NumLit} (h : l.SameLayout l') : l'.SameLayout l := ⟨h.1.symm, h.2.symm⟩

theorem NumLit.SameLayout.scale {l l' : NumLit} (h : l.SameLayout l') : l.scale = l'.scale := by
  unfold NumLit.scale
  rw [h.1]
  congr 1
  have := h.2
  cases h1 : l.exp <;> cases h2 : l'.exp <;> rw [h1, h2] at this <;> simp at this ⊢
  exact this

theorem NumLit.SameLayout.isInt {l l' : NumLit} (h : l.SameLayout l') (hw' : l'.WF) (hd' : l'.digits ≤ u64Max)
    (hi : l.isInt) : l'.isInt := by
  obtain ⟨-, hf, hx⟩ := hi
  have hf' : l'.frac = none := by
    cases hf' : l'.frac with
    | none => rfl
    | some fs =>
      have := h.1
      rw [hf, hf'] at this
      have hne := (hw'.frac_digits fs hf').1
      cases fs with
      | nil => exact absurd rfl hne
      | cons => simp at this
  have hx' : l'.exp = none := by
    have := h.2
    rw [hx] at this
    cases he : l'.exp with
    | none => rfl
    | some _ => rw [he] at this; cases this
  exact ⟨by rwa [NumLit.digits_int hf'] at hd', hf', hx'⟩

theorem expValue_zero {st : Int} {xo : Option ExpPart} {x : F64} (h : expValue true 0 st xo = .ok x) : x.val = 0 := by
  have key : ∀ E {x : F64}, De.f64FromParts true 0 E = .ok x → x.val = 0 := by
    intro E x h
    unfold De.f64FromParts at h
    have e0 : Flt.ofNat binary64 0 = .fin false 0 binary64.emin := round_zero _ _ _
    obtain ⟨e', h1, -⟩ := f64Loop_zero zero_valid E
    rw [e0, h1] at h
    cases h
    simp [Flt.val]
  cases xo with
  | none => exact key st h
  | some x =>
    rw [expValue_some] at h
    split at h
    · simp only [ne_eq, not_true_eq_false, if_false] at h; cases h; simp [Flt.val]
    · split at h
      · cases h; simp [Flt.val]
      · exact key _ h

/-- The digits with their sign. -/
def NumLit.sdigits (l : NumLit) : Int := if l.minus then -(l.digits : Int) else l.digits

theorem NumLit.SameLayout.le_iff {l l' : NumLit} (h : l.SameLayout l') : l.value ≤ l'.value ↔ l.sdigits ≤ l'.sdigits := by
  have e : ∀ l : NumLit, l.value = (l.sdigits : ℚ) * 10 ^ l.scale := by
    intro l
    rw [NumLit.value_eq]
    unfold NumLit.sdigits
    split <;> push_cast <;> ring
  rw [e l, e l', h.scale, mul_le_mul_iff_left₀ (by positivity)]
  exact_mod_cast Iff.rfl

theorem NumLit.SameLayout.abs_le_iff {l l' : NumLit} (h : l.SameLayout l') : |l.value| ≤ |l'.value| ↔ l.digits ≤ l'.digits := by
  have e : ∀ l : NumLit, |l.value| = (l.digits : ℚ) * 10 ^ l.scale := by
    intro l
    rw [NumLit.value_eq, abs_mul, abs_of_nonneg (a := (l.digits : ℚ) * 10 ^ l.scale) (by positivity)]
    split <;> simp
  rw [e l, e l', h.scale, mul_le_mul_iff_left₀ (by positivity)]
  exact_mod_cast Iff.rfl

/-- The exact value of an integer literal, or its rounding if it is below the range of `i64`. -/
theorem numEvent_int_val {l : NumLit} (hi : l.isInt) {ev : Event} (h : numEvent l = .ok ev) :
    (-9223372036854775808 ≤ l.sdigits ∧ ev.numVal = l.sdigits) ∨
    (l.sdigits < -9223372036854775808 ∧ ev.numVal = -(Flt.ofNat binary64 l.digits).val) := by
  have hd : l.digits = digitsVal l.int := NumLit.digits_int hi.2.1
  rw [numEvent_int hi.2.1 hi.2.2, if_pos hi.1, ← hd] at h
  unfold NumLit.sdigits
  by_cases hm : l.minus = true
  · rw [if_pos hm] at h ⊢
    split at h
    · cases h
      exact .inl ⟨by omega, by simp [Event.numVal]⟩
    · cases h
      exact .inr ⟨by omega, neg_val _⟩
  · rw [if_neg hm] at h ⊢
    cases h
    exact .inl ⟨by omega, by simp [Event.numVal]⟩

theorem numEvent_mono {l l' : NumLit} (hs : l.SameLayout l') (hw : l.WF) (hw' : l'.WF) (hlen : l.text.length < 2 ^ 31) (hlen' : l'.text.length < 2 ^ 31)
    (hd : l.digits ≤ u64Max) (hd' : l'.digits ≤ u64Max) (hv : l.value ≤ l'.value) {ev ev' : Event} (h : numEvent l = .ok ev)
    (h' : numEvent l' = .ok ev') : ev.numVal ≤ ev'.numVal := by
  rw [hs.le_iff] at hv
  by_cases hi : l.isInt
  · have hi' := hs.isInt hw' hd' hi
    have h63 : RoundsTo binary64 ((9223372036854775808 : Nat) : ℚ) (Flt.ofNat binary64 9223372036854775808) := ofNat_rounds binary64_ok _
    have e63 : (Flt.ofNat binary64 9223372036854775808).val = 9223372036854775808 := by
      have : Flt.ofNat binary64 9223372036854775808 = .fin false 4503599627370496 11 := by decide +kernel
      rw [this]; simp only [Flt.val, Bool.false_eq_true, if_false, one_mul]; norm_num
    have key : ∀ {l : NumLit}, l.digits ≤ u64Max → l.sdigits < -9223372036854775808 → 9223372036854775808 ≤ (Flt.ofNat binary64 l.digits).val := by
      intro l hd h
      rw [← e63]
      refine (ofNat_pos (by decide)).val_le (ofNat_pos hd) h63 (ofNat_rounds binary64_ok _) ?_
      have : 9223372036854775808 ≤ l.digits := by unfold NumLit.sdigits at h; split at h <;> omega
      exact_mod_cast this
    rcases numEvent_int_val hi h with ⟨a1, a2⟩ | ⟨a1, a2⟩ <;> rcases numEvent_int_val hi' h' with ⟨b1, b2⟩ | ⟨b1, b2⟩ <;> rw [a2, b2]
    · exact_mod_cast hv
    · omega
    · have := key hd a1
      have b1' : (-9223372036854775808 : ℚ) ≤ l'.sdigits := by exact_mod_cast b1
      linarith
    · have h2 : l'.digits ≤ l.digits := by unfold NumLit.sdigits at *; split at a1 <;> split at b1 <;> simp_all <;> omega
      have := (ofNat_pos hd').val_le (ofNat_pos hd) (ofNat_rounds binary64_ok _) (ofNat_rounds binary64_ok _) (by exact_mod_cast h2)
      linarith
  · have hi' : ¬ l'.isInt := fun h => hi (hs.symm.isInt hw hd h)
    rw [numEvent_scaled hi hlen hd] at h
    rw [numEvent_scaled hi' hlen' hd'] at h'
    obtain ⟨x, hx, rfl⟩ := map_ok_inv h
    obtain ⟨y, hy, rfl⟩ := map_ok_inv h'
    have efl : l.fracLen = l'.fracLen := hs.1
    rw [← efl, ← expValue_congr hs.2] at hy
    obtain ⟨_, _, _, px, _⟩ := expValue_mono (le_refl _) hd hx
    obtain ⟨_, _, _, py, _⟩ := expValue_mono (le_refl _) hd' hy
    have px0 := px.val_nonneg
    have py0 := py.val_nonneg
    unfold NumLit.sdigits at hv
    cases hm : l.minus <;> cases hm' : l'.minus <;> simp only [hm, hm', Bool.false_eq_true, if_false, if_true, Event.numVal, neg_val] at hv ⊢
    · obtain ⟨x', e, -, -, hle⟩ := expValue_mono (n := l.digits) (by omega) hd' hy
      rw [hx] at e; cases e; exact hle
    · have h0 : l.digits = 0 := by omega
      have h0' : l'.digits = 0 := by omega
      rw [h0] at hx
      rw [h0'] at hy
      rw [expValue_zero hx, expValue_zero hy]; simp
    · linarith
    · obtain ⟨y', e, -, -, hle⟩ := expValue_mono (n := l'.digits) (by omega) hd hx
      rw [hy] at e; cases e; linarith

theorem numEvent_smaller {l l' : NumLit} (hs : l.SameLayout l') (hw : l.WF) (hlen : l.text.length < 2 ^ 31) (hlen' : l'.text.length < 2 ^ 31)
    (hd' : l'.digits ≤ u64Max) (hv : |l.value| ≤ |l'.value|) {ev' : Event} (h' : numEvent l' = .ok ev') : ∃ ev, numEvent l = .ok ev := by
  rw [hs.abs_le_iff] at hv
  by_cases hi : l.isInt
  · obtain ⟨ev, h, -⟩ := numEvent_isInt hi
    exact ⟨ev, h⟩
  · have hi' : ¬ l'.isInt := fun h => hi (hs.symm.isInt hw (by omega) h)
    rw [numEvent_scaled hi' hlen' hd'] at h'
    obtain ⟨y, hy, -⟩ := map_ok_inv h'
    have efl : l.fracLen = l'.fracLen := hs.1
    rw [← efl, ← expValue_congr hs.2] at hy
    obtain ⟨x, hx, -⟩ := expValue_mono hv hd' hy
    rw [numEvent_scaled hi hlen (by omega), hx]
    exact ⟨_, rfl⟩

/-! ## Negation -/

theorem negated_isInt {l : NumLit} : l.negated.isInt ↔ l.isInt := Iff.rfl

theorem negated_value (l : NumLit) : l.negated.value = -l.value := by
  rw [NumLit.value_eq, NumLit.value_eq]
  have e1 : l.negated.digits = l.digits := rfl
  have e2 : l.negated.scale = l.scale := rfl
  have e3 : l.negated.minus = !l.minus := rfl
  rw [e1, e2, e3]
  cases l.minus <;> simp

theorem numEvent_negated {l : NumLit} (hi : ¬ l.isInt) (hlen : l.text.length < 2 ^ 31) (hlen' : l.negated.text.length < 2 ^ 31) {x : F64}
    (h : numEvent l = .ok (.float x)) : numEvent l.negated = .ok (.float x.neg) := by
  rw [(numEvent_float_ok hi hlen).1, expValue_sign] at h
  rw [(numEvent_float_ok (negated_isInt.not.2 hi) hlen').1, expValue_sign]
  have e1 : sigExp l.negated = sigExp l := rfl
  have e2 : l.negated.exp = l.exp := rfl
  have e3 : l.negated.minus = !l.minus := rfl
  rw [e1, e2, e3]
  have nn : ∀ y : F64, y.neg.neg = y := by intro y; cases y <;> simp [Flt.neg]
  cases hx : expValue true (sigExp l).1 (sigExp l).2 l.exp with
  | ok y =>
    rw [hx] at h
    cases hm : l.minus <;> rw [hm] at h <;> cases h
    · rfl
    · show Res.ok (Event.float y) = Res.ok (Event.float y.neg.neg)
      rw [nn]
  | err => rw [hx] at h; cases h
  | panic => rw [hx] at h; cases h

end Miniserde
