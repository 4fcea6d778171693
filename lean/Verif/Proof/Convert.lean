import Verif.Spec.Convert
import Verif.Proof.Order

/-!
# The number conversion computes `Converts`
-/

namespace Miniserde

/-- Rounding determines the value. -/
theorem RoundsTo.same {f : Fmt} (hf : f.Ok) {r : ℚ} {x y : Flt} (h : RoundsTo f r x) (h' : RoundsTo f r y) :
    x.val = y.val ∧ x.isFinite = y.isFinite := by
  by_cases hr : r = 0
  · have hL := Fmt.limit_pos (f := f)
    subst hr
    cases h with
    | inf hl => rw [abs_zero] at hl; linarith
    | fin hv hl near tie pos neg =>
      have hx : RoundsTo f 0 (.fin _ _ _) := .fin hv hl near tie pos neg
      cases h' with
      | inf hl' => rw [abs_zero] at hl'; linarith
      | fin hv' hl' near' tie' pos' neg' => exact ⟨hx.val_unique hf (.fin hv' hl' near' tie' pos' neg'), rfl⟩
  · have := h.unique hf h' (fun h => absurd h hr)
    subst this
    exact ⟨rfl, rfl⟩

theorem pow10_rounds {k : Int} (h0 : 0 ≤ k) : RoundsTo binary64 (10 ^ k) (Flt.pow10Lit k.natAbs) := by
  have h : RoundsTo binary64 ((10 ^ k.natAbs : Nat) : ℚ) (Flt.pow10Lit k.natAbs) := ofNat_rounds binary64_ok (10 ^ k.natAbs)
  have e : ((10 ^ k.natAbs : Nat) : ℚ) = 10 ^ k := by
    have : k = (k.natAbs : Int) := by omega
    conv_rhs => rw [this, zpow_natCast]
    push_cast; rfl
  rwa [e] at h

theorem f64Loop_scales (N : Nat) : ∀ {x : F64} (E : Int), E.natAbs ≤ N → x.Pos →
    match De.f64Loop x E with
    | .ok y => Scales x E (some y) ∧ y.Pos
    | .err => Scales x E none
    | .panic => False := by
  induction N with
  | zero =>
    intro x E hE hx
    have h0 : E.natAbs < 309 := by omega
    obtain ⟨p, q, e, hp, hp1⟩ := pow10_pos h0
    have hpow := pow10_rounds (k := E) (by omega)
    obtain ⟨m, ex, rfl, hv⟩ := hx
    rw [De.f64Loop, POW10_some h0]
    simp only [ge_iff_le]
    rw [if_pos (by omega)]
    rw [e] at hpow ⊢
    have h1 := mul_rounds binary64_ok false false m p ex q
    rcases outcome_pos (mul_outcome binary64_ok false false m p ex q) with h3 | h3
    · rw [h3]
      rw [h3] at h1
      exact .over (by omega) (by omega) hpow h1 rfl
    · have hi : (Flt.mul binary64 (.fin false m ex) (.fin false p q)).isInfinite = false := by
        obtain ⟨a, b, e1, -⟩ := h3; rw [e1]; rfl
      have hfin : (Flt.mul binary64 (.fin false m ex) (.fin false p q)).isFinite = true := by
        obtain ⟨a, b, e1, -⟩ := h3; rw [e1]; rfl
      rw [hi]
      exact ⟨.mul (by omega) (by omega) hpow h1 hfin, h3⟩
  | succ N ih =>
    intro x E hE hx
    by_cases h0 : E.natAbs < 309
    · obtain ⟨p, q, e, hp, hp1⟩ := pow10_pos h0
      have hx' := hx
      obtain ⟨m, ex, rfl, hv⟩ := hx
      rw [De.f64Loop, POW10_some h0]
      simp only [ge_iff_le]
      by_cases hE0 : 0 ≤ E
      · have hpow := pow10_rounds (k := E) hE0
        rw [if_pos hE0]
        rw [e] at hpow ⊢
        have h1 := mul_rounds binary64_ok false false m p ex q
        rcases outcome_pos (mul_outcome binary64_ok false false m p ex q) with h3 | h3
        · rw [h3]
          rw [h3] at h1
          exact .over (by omega) (by omega) hpow h1 rfl
        · have hi : (Flt.mul binary64 (.fin false m ex) (.fin false p q)).isInfinite = false := by
            obtain ⟨a, b, e1, -⟩ := h3; rw [e1]; rfl
          have hfin : (Flt.mul binary64 (.fin false m ex) (.fin false p q)).isFinite = true := by
            obtain ⟨a, b, e1, -⟩ := h3; rw [e1]; rfl
          rw [hi]
          exact ⟨.mul (by omega) (by omega) hpow h1 hfin, h3⟩
      · have hpow := pow10_rounds (k := -E) (by omega)
        have en : (-E).natAbs = E.natAbs := by omega
        rw [en] at hpow
        rw [if_neg hE0]
        have hpos := (div_mono hx' hx' e hp (by rw [e]; exact hp1) (le_refl _)).1
        rw [e] at hpow hpos ⊢
        exact ⟨.div (by omega) (by omega) hpow (div_rounds binary64_ok false false m p ex q hp), hpos⟩
    · rw [De.f64Loop, POW10_none h0]
      simp only [ge_iff_le]
      have hz := hx.zero
      cases zx : x.isZero with
      | true => exact ⟨.zero (by omega) (hz.1 zx), hx⟩
      | false =>
        have hne : x.val ≠ 0 := fun h => by rw [hz.2 h] at zx; cases zx
        by_cases hE0 : 0 ≤ E
        · simp only [Bool.false_eq_true, if_false, hE0, dite_true]
          exact .big (by omega) hne
        · have hE2 : E + 308 < 0 := by omega
          simp only [Bool.false_eq_true, if_false, hE0, dite_false, hE2, dite_true]
          obtain ⟨p, q, e, hp, hp1⟩ := pow10_pos (k := 308) (by omega)
          have hpos := (div_mono hx hx e hp (by rw [e]; exact hp1) (le_refl _)).1
          have hpow : RoundsTo binary64 (10 ^ (308 : Int)) (Flt.pow10Lit 308) := pow10_rounds (k := 308) (by omega)
          have hrec := ih (E + 308) (by omega) hpos
          have hr : RoundsTo binary64 (x.val / (Flt.pow10Lit 308).val) (Flt.div binary64 x (Flt.pow10Lit 308)) := by
            obtain ⟨m, ex, rfl, hv⟩ := hx
            rw [e]
            exact div_rounds binary64_ok false false m p ex q hp
          cases hl : De.f64Loop (Flt.div binary64 x (Flt.pow10Lit 308)) (E + 308) with
          | ok y => rw [hl] at hrec; exact ⟨.step (by omega) hne hpow hr hrec.1, hrec.2⟩
          | err => rw [hl] at hrec; exact .step (by omega) hne hpow hr hrec
          | panic => rw [hl] at hrec; exact hrec

/-- What `Converts` says about an outcome of the conversion. -/
def Converted (n : Nat) (k : Int) : Res F64 → Prop
  | .ok y => y.Pos ∧ ∃ y', Converts n k (some y') ∧ y'.isFinite = true ∧ y'.val = y.val
  | .err => Converts n k none
  | .panic => False

theorem Flt.Pos.finite {x : F64} (h : x.Pos) : x.isFinite = true := by
  obtain ⟨a, b, rfl, -⟩ := h; rfl

theorem fromParts_converts {n : Nat} (hn : n ≤ u64Max) (E : Int) : Converted n E (De.f64FromParts true n E) := by
  have h := f64Loop_scales _ E (le_refl _) (ofNat_pos hn)
  unfold De.f64FromParts
  cases hl : De.f64Loop (Flt.ofNat binary64 n) E with
  | ok y => rw [hl] at h; exact ⟨h.2, y, ⟨_, ofNat_rounds binary64_ok n, h.1⟩, h.2.finite, rfl⟩
  | err => rw [hl] at h; exact ⟨_, ofNat_rounds binary64_ok n, h⟩
  | panic => rw [hl] at h; exact h

theorem ofNat_val_ne {n : Nat} (hn : n ≤ u64Max) (h0 : n ≠ 0) : (Flt.ofNat binary64 n).val ≠ 0 := by
  have h1 := (ofNat_pos (n := 1) (by decide)).val_le (ofNat_pos hn) (ofNat_rounds binary64_ok 1) (ofNat_rounds binary64_ok n)
    (by exact_mod_cast Nat.one_le_iff_ne_zero.2 h0)
  have e2 : Flt.ofNat binary64 1 = .fin false 4503599627370496 (-52) := by decide +kernel
  have e3 : (Flt.ofNat binary64 1).val = 1 := by rw [e2]; simp only [Flt.val, Bool.false_eq_true, if_false, one_mul]; norm_num
  rw [e3] at h1
  intro h
  rw [h] at h1
  norm_num at h1

theorem converts_big {n : Nat} (hn : n ≤ u64Max) (h0 : n ≠ 0) {k : Int} (hk : 308 < k) : Converts n k none :=
  ⟨_, ofNat_rounds binary64_ok n, .big hk (ofNat_val_ne hn h0)⟩

theorem converts_zero {k : Int} (hk : 308 < k) : ∃ y', Converts 0 k (some y') ∧ y'.isFinite = true ∧ y'.val = 0 := by
  have e0 : Flt.ofNat binary64 0 = .fin false 0 binary64.emin := round_zero _ _ _
  have hr := ofNat_rounds binary64_ok 0
  rw [e0] at hr
  have hz : (Flt.fin false 0 binary64.emin).val = 0 := by simp [Flt.val]
  exact ⟨_, ⟨_, hr, .zero (.inr hk) hz⟩, rfl, hz⟩

theorem converts_small {n : Nat} (hn : n ≤ u64Max) {k : Int} (hk : k ≤ -617) : ∃ y', Converts n k (some y') ∧ y'.isFinite = true ∧ y'.val = 0 := by
  obtain ⟨e, h, -⟩ := f64Loop_small hn hk
  have hs := f64Loop_scales _ k (le_refl _) (ofNat_pos hn)
  rw [h] at hs
  exact ⟨_, ⟨_, ofNat_rounds binary64_ok n, hs.1⟩, rfl, by simp [Flt.val]⟩

theorem zero_val : (Flt.fin false 0 binary64.emin).val = 0 := by simp [Flt.val]

theorem expValue_converts {n : Nat} (hn : n ≤ u64Max) {st : Int} (h1 : -2147482700 ≤ st) (h2 : st ≤ 2147482700) (xo : Option ExpPart) :
    Converted n (st + xo.elim 0 ExpPart.value) (expValue true n st xo) := by
  cases xo with
  | none => simp only [Option.elim_none, add_zero]; exact fromParts_converts hn st
  | some x =>
    simp only [Option.elim_some]
    rw [expValue_some]
    have hM : I32_MAX = 2147483647 := rfl
    have hm : I32_MIN = -2147483648 := rfl
    by_cases c1 : 2147483647 < x.value
    · rw [if_pos c1]
      by_cases h0 : n = 0
      · subst h0
        rw [if_neg (by simp)]
        obtain ⟨y', a, b, c⟩ := converts_zero (k := st + x.value) (by omega)
        exact ⟨zero_pos, y', a, b, by rw [c, zero_val]⟩
      · rw [if_pos h0]
        exact converts_big hn h0 (by omega)
    · rw [if_neg c1]
      by_cases c2 : x.value < -2147483647
      · rw [if_pos c2]
        obtain ⟨y', a, b, c⟩ := converts_small hn (k := st + x.value) (by omega)
        exact ⟨zero_pos, y', a, b, by rw [c, zero_val]⟩
      · rw [if_neg c2]
        unfold satI32
        by_cases hlo : st + x.value < I32_MIN
        · rw [if_pos hlo]
          obtain ⟨e, h, hv⟩ := f64Loop_small hn (E := I32_MIN) (by omega)
          rw [fromParts_of_loop h]
          obtain ⟨y', a, b, c⟩ := converts_small hn (k := st + x.value) (by omega)
          exact ⟨⟨_, _, rfl, hv⟩, y', a, b, by rw [c]; simp [Flt.val]⟩
        · rw [if_neg hlo]
          by_cases hhi : I32_MAX < st + x.value
          · rw [if_pos hhi]
            by_cases h0 : n = 0
            · subst h0
              have e0 : Flt.ofNat binary64 0 = .fin false 0 binary64.emin := round_zero _ _ _
              obtain ⟨e', h1, hv⟩ := f64Loop_zero zero_valid I32_MAX
              rw [← e0] at h1
              rw [fromParts_of_loop h1]
              obtain ⟨y', a, b, c⟩ := converts_zero (k := st + x.value) (by omega)
              exact ⟨⟨_, _, rfl, hv⟩, y', a, b, by rw [c]; simp [Flt.val]⟩
            · rw [fromParts_err (f64Loop_big hn h0 (by omega))]
              exact converts_big hn h0 (by omega)
          · rw [if_neg hhi]
            exact fromParts_converts hn _

theorem used_sigExp {l : NumLit} : l.used = sigExp l := by
  unfold NumLit.used sigExp
  cases l.frac with
  | none => simp [accum]
  | some fs => rfl

/-- The literal that is no integer. -/
theorem numEvent_converts {l : NumLit} (hi : ¬ l.isInt) (hlen : l.text.length ≤ 2147482700) :
    (numEvent l = .err ∧ Converts l.used.1 (l.used.2 + l.exp.elim 0 ExpPart.value) none) ∨
    ∃ x y, numEvent l = .ok (.float x) ∧ Converts l.used.1 (l.used.2 + l.exp.elim 0 ExpPart.value) (some y) ∧ y.isFinite = true ∧
      x.val = (if l.minus then -1 else 1) * y.val := by
  obtain ⟨he, h1, h2⟩ := numEvent_float_ok hi (by omega)
  have hlen2 : l.int.length ≤ 2147482700 ∧ (l.frac.getD []).length ≤ 2147482700 := by
    unfold NumLit.text at hlen
    simp only [List.length_append] at hlen
    refine ⟨by omega, ?_⟩
    cases hf : l.frac with
    | none => simp
    | some fs => rw [hf] at hlen; simp only [List.length_cons] at hlen; simp only [Option.getD_some]; omega
  rw [used_sigExp]
  have hc := expValue_converts (sigExp_le l) (st := (sigExp l).2) (by omega) (by omega) l.exp
  rw [expValue_sign] at he
  cases hx : expValue true (sigExp l).1 (sigExp l).2 l.exp with
  | ok y =>
    rw [hx] at he hc
    obtain ⟨-, y', a, b, c⟩ := hc
    refine .inr ⟨_, y', he, a, b, ?_⟩
    cases hm : l.minus
    · simp [c]
    · simp [c, neg_val]
  | err =>
    rw [hx] at he hc
    exact .inl ⟨he, hc⟩
  | panic => rw [hx] at hc; exact hc.elim

/-- `Scales` is a function of the value. -/
theorem Scales.unique {a a' : F64} {k : Int} {r r' : Option F64} (h : Scales a k r) (h' : Scales a' k r') (he : a.val = a'.val) :
    r.map Flt.val = r'.map Flt.val := by
  induction h generalizing a' r' with
  | @mul a b x k h0 hk hb hx hf =>
    cases h' with
    | mul h0' hk' hb' hx' hf' =>
      rw [he, (hb.same binary64_ok hb').1] at hx
      simp [(hx.same binary64_ok hx').1]
    | over h0' hk' hb' hx' hf' =>
      rw [he, (hb.same binary64_ok hb').1] at hx
      rw [(hx.same binary64_ok hx').2, hf'] at hf; cases hf
    | div h0' => omega
    | zero hz => omega
    | big hz => omega
    | step hz => omega
  | @over a b x k h0 hk hb hx hf =>
    cases h' with
    | mul h0' hk' hb' hx' hf' =>
      rw [he, (hb.same binary64_ok hb').1] at hx
      rw [(hx.same binary64_ok hx').2, hf'] at hf; cases hf
    | over => rfl
    | div h0' => omega
    | zero hz => omega
    | big hz => omega
    | step hz => omega
  | @div a b x k h0 hk hb hx =>
    cases h' with
    | mul h0' => omega
    | over h0' => omega
    | div h0' hk' hb' hx' =>
      rw [he, (hb.same binary64_ok hb').1] at hx
      simp [(hx.same binary64_ok hx').1]
    | zero hz => omega
    | big hz => omega
    | step hz => omega
  | @zero a k hk ha =>
    cases h' with
    | mul => omega
    | over => omega
    | div => omega
    | zero _ ha' => simp [ha, ha']
    | big _ ha' => exact absurd (he ▸ ha) ha'
    | step _ ha' => exact absurd (he ▸ ha) ha'
  | @big a k hk ha =>
    cases h' with
    | mul => omega
    | over => omega
    | div => omega
    | zero _ ha' => exact absurd (he.trans ha') ha
    | big => rfl
    | step hk' => omega
  | @step a b a1 k r hk ha hb hx hs ih =>
    cases h' with
    | mul => omega
    | over => omega
    | div => omega
    | zero _ ha' => exact absurd (he.trans ha') ha
    | big hk' => omega
    | step hk' ha' hb' hx' hs' =>
      rw [he, (hb.same binary64_ok hb').1] at hx
      exact ih hs' (hx.same binary64_ok hx').1

end Miniserde
