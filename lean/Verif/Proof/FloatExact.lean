import Verif.Proof.FloatFinite

/-!
# Correct rounding: uniqueness, exact cases, and the operations
-/

namespace Miniserde

/-! ## Rounding is a function -/

theorem Flt.val_abs (s : Bool) (m : Nat) (e : Int) : |(Flt.fin s m e).val| = (m : ℚ) * 2 ^ e := by
  have h : (0 : ℚ) ≤ (m : ℚ) * 2 ^ e := mul_nonneg (Nat.cast_nonneg _) (two_zpow_pos _).le
  cases s <;> simp [Flt.val, abs_of_nonneg h]

theorem valid_has {f : Fmt} {s : Bool} {m : Nat} {e : Int} (h : (Flt.fin s m e).Valid f) : f.Has (Flt.fin s m e).val := by
  refine ⟨m, e, h.1, h.2.1, h.2.2.1, ?_⟩
  cases s
  · left; simp [Flt.val]
  · right; simp [Flt.val]

/-- Larger exponent, larger number. -/
theorem valid_exp_lt {f : Fmt} (hp : 1 ≤ f.prec) {s s' : Bool} {m m' : Nat} {e e' : Int} (h : (Flt.fin s m e).Valid f)
    (h' : (Flt.fin s' m' e').Valid f) (he : e < e') : (m : ℚ) * 2 ^ e < m' * 2 ^ e' := by
  have h1 : (m : ℚ) < 2 ^ f.prec := by exact_mod_cast h.1
  have h2 : 2 ^ (f.prec - 1) ≤ m' := by
    rcases h'.2.2.2 with h2 | h2
    · have := h.2.1; omega
    · exact h2
  have h3 : (2 : ℚ) ^ (f.prec - 1) ≤ m' := by exact_mod_cast h2
  have h4 : (2 : ℚ) ^ e * 2 ≤ 2 ^ e' := by
    rw [← zpow_add_one₀ (by norm_num)]
    exact zpow_le_zpow_right₀ (by norm_num) (by omega)
  have h5 : (2 : ℚ) ^ f.prec = 2 ^ (f.prec - 1) * 2 := by rw [← pow_succ]; congr 1; omega
  have h6 := two_zpow_pos e
  have h7 : (0 : ℚ) < 2 ^ (f.prec - 1) := by positivity
  calc (m : ℚ) * 2 ^ e < 2 ^ f.prec * 2 ^ e := mul_lt_mul_of_pos_right h1 h6
    _ = 2 ^ (f.prec - 1) * (2 ^ e * 2) := by rw [h5]; ring
    _ ≤ 2 ^ (f.prec - 1) * 2 ^ e' := mul_le_mul_of_nonneg_left h4 h7.le
    _ ≤ m' * 2 ^ e' := mul_le_mul_of_nonneg_right h3 (two_zpow_pos _).le

/-- The representation is unique. -/
theorem valid_inj {f : Fmt} (hp : 1 ≤ f.prec) {s s' : Bool} {m m' : Nat} {e e' : Int} (h : (Flt.fin s m e).Valid f)
    (h' : (Flt.fin s' m' e').Valid f) (he : (m : ℚ) * 2 ^ e = m' * 2 ^ e') : m = m' ∧ e = e' := by
  rcases lt_trichotomy e e' with hlt | rfl | hlt
  · exact absurd he (ne_of_lt (valid_exp_lt hp h h' hlt))
  · refine ⟨?_, rfl⟩
    have := mul_right_cancel₀ (ne_of_gt (two_zpow_pos e)) he
    exact_mod_cast this
  · exact absurd he.symm (ne_of_lt (valid_exp_lt hp h' h hlt))

/-- Between two numbers of the format, the lower one even, there is a third one. -/
theorem between {f : Fmt} (hf : f.Ok) {s s' : Bool} {m m' : Nat} {e e' : Int} (h : (Flt.fin s m e).Valid f)
    (h' : (Flt.fin s' m' e').Valid f) (hm : m % 2 = 0) (hm' : m' % 2 = 0) (hlt : (m : ℚ) * 2 ^ e < m' * 2 ^ e') :
    ∃ z, f.Has z ∧ f.Has (-z) ∧ (m : ℚ) * 2 ^ e < z ∧ z < m' * 2 ^ e' := by
  have hp := hf.prec
  have hE := two_zpow_pos e
  have hodd : m + 1 < 2 ^ f.prec := by
    have h1 := h.1
    have h2 : 2 ^ f.prec = 2 * 2 ^ (f.prec - 1) := by rw [← pow_succ']; congr 1; omega
    omega
  have hz : f.Has (((m + 1 : Nat) : ℚ) * 2 ^ e) := ⟨m + 1, e, hodd, h.2.1, h.2.2.1, .inl rfl⟩
  refine ⟨_, hz, Has.neg hz, ?_, ?_⟩
  · exact mul_lt_mul_of_pos_right (by push_cast; linarith) hE
  · rcases lt_trichotomy e e' with hlt' | rfl | hlt'
    · have h1 : ((m + 1 : Nat) : ℚ) < 2 ^ f.prec := by exact_mod_cast hodd
      have h2 : 2 ^ (f.prec - 1) ≤ m' := by
        rcases h'.2.2.2 with h2 | h2
        · have := h.2.1; omega
        · exact h2
      have h3 : (2 : ℚ) ^ (f.prec - 1) ≤ m' := by exact_mod_cast h2
      have h4 : (2 : ℚ) ^ e * 2 ≤ 2 ^ e' := by
        rw [← zpow_add_one₀ (by norm_num)]
        exact zpow_le_zpow_right₀ (by norm_num) (by omega)
      have h5 : (2 : ℚ) ^ f.prec = 2 ^ (f.prec - 1) * 2 := by rw [← pow_succ]; congr 1; omega
      have h7 : (0 : ℚ) < 2 ^ (f.prec - 1) := by positivity
      calc ((m + 1 : Nat) : ℚ) * 2 ^ e < 2 ^ f.prec * 2 ^ e := mul_lt_mul_of_pos_right h1 hE
        _ = 2 ^ (f.prec - 1) * (2 ^ e * 2) := by rw [h5]; ring
        _ ≤ 2 ^ (f.prec - 1) * 2 ^ e' := mul_le_mul_of_nonneg_left h4 h7.le
        _ ≤ m' * 2 ^ e' := mul_le_mul_of_nonneg_right h3 (two_zpow_pos _).le
    · have h1 : (m : ℚ) < m' := lt_of_mul_lt_mul_right hlt hE.le
      have h2 : m < m' := by exact_mod_cast h1
      have h3 : m + 1 < m' := by omega
      exact mul_lt_mul_of_pos_right (by exact_mod_cast h3) hE
    · exact absurd hlt (not_lt.2 (valid_exp_lt (by omega) h' h hlt').le)

theorem RoundsTo.sign_eq {f : Fmt} {r : ℚ} {x : Flt} (h : RoundsTo f r x) : (0 < r → x.sign = false) ∧ (r < 0 → x.sign = true) := by
  cases h with
  | fin _ _ _ _ p n => exact ⟨p, n⟩
  | inf _ p n => exact ⟨p, n⟩

theorem Flt.val_of_sign (s : Bool) (m : Nat) (e : Int) : (Flt.fin s m e).val = if s then -((m : ℚ) * 2 ^ e) else m * 2 ^ e := by
  cases s <;> simp [Flt.val]

/-- A strictly closer number contradicts rounding. -/
theorem closer {a b r z : ℚ} (h : |a - r| = |b - r|) (h1 : a < z) (h2 : z < b) : |z - r| < |a - r| := by
  have hr : a < r := by
    by_contra hc
    have h3 : |a - r| = a - r := abs_of_nonneg (by linarith)
    have h4 : |b - r| = b - r := abs_of_nonneg (by linarith)
    linarith
  have h3 : |a - r| = r - a := by rw [abs_sub_comm]; exact abs_of_nonneg (by linarith)
  have hb : r < b := by
    by_contra hc
    have h4 : |b - r| = r - b := by rw [abs_sub_comm]; exact abs_of_nonneg (by linarith)
    linarith
  have h4 : |b - r| = b - r := abs_of_nonneg (by linarith)
  rw [h3, abs_lt]
  constructor <;> linarith

/-- The rounded value is determined... -/
theorem RoundsTo.val_unique {f : Fmt} (hf : f.Ok) {r : ℚ} {s s' : Bool} {m m' : Nat} {e e' : Int} (h : RoundsTo f r (.fin s m e))
    (h' : RoundsTo f r (.fin s' m' e')) : (Flt.fin s m e).val = (Flt.fin s' m' e').val := by
  obtain ⟨hv, hl, near, tie, pos, neg⟩ := h
  obtain ⟨hv', hl', near', tie', pos', neg'⟩ := h'
  by_contra hne
  have heq : |(Flt.fin s m e).val - r| = |(Flt.fin s' m' e').val - r| :=
    le_antisymm (near _ (valid_has hv')) (near' _ (valid_has hv))
  have hm := tie _ (valid_has hv') (fun h => hne h.symm) heq
  have hm' := tie' _ (valid_has hv) hne heq.symm
  have hr0 : r ≠ 0 := by
    rintro rfl
    have h0 : f.Has 0 := ⟨0, f.emin, by positivity, le_refl _, hf.range, .inl (by simp)⟩
    have h1 := near 0 h0
    have h2 := near' 0 h0
    simp only [sub_zero, abs_zero, abs_nonpos_iff] at h1 h2
    exact hne (h1.trans h2.symm)
  have hss : s = s' := by
    rcases lt_or_gt_of_ne hr0 with h | h
    · rw [neg h, neg' h]
    · rw [pos h, pos' h]
  subst hss
  have habs : (m : ℚ) * 2 ^ e ≠ m' * 2 ^ e' := fun h => hne (by simp only [Flt.val, h])
  rw [Flt.val_of_sign, Flt.val_of_sign] at heq
  rw [Flt.val_of_sign] at near near'
  cases s
  · simp only [Bool.false_eq_true, if_false] at heq near near'
    rcases lt_or_gt_of_ne habs with hlt | hlt
    · obtain ⟨z, hz, -, h1, h2⟩ := between hf hv hv' hm hm' hlt
      exact absurd (near z hz) (not_le.2 (closer heq h1 h2))
    · obtain ⟨z, hz, -, h1, h2⟩ := between hf hv' hv hm' hm hlt
      exact absurd (near' z hz) (not_le.2 (closer heq.symm h1 h2))
  · simp only [if_true] at heq near near'
    rcases lt_or_gt_of_ne habs with hlt | hlt
    · obtain ⟨z, -, hz, h1, h2⟩ := between hf hv hv' hm hm' hlt
      exact absurd (near' (-z) hz) (not_le.2 (closer heq.symm (by linarith) (by linarith)))
    · obtain ⟨z, -, hz, h1, h2⟩ := between hf hv' hv hm' hm hlt
      exact absurd (near (-z) hz) (not_le.2 (closer heq (by linarith) (by linarith)))

/-- ... and so is the float, apart from the sign of zero. -/
theorem RoundsTo.unique {f : Fmt} (hf : f.Ok) {r : ℚ} {x y : Flt} (h : RoundsTo f r x) (h' : RoundsTo f r y) (hs : r = 0 → x.sign = y.sign) :
    x = y := by
  have hsign : x.sign = y.sign := by
    rcases lt_trichotomy r 0 with hr | hr | hr
    · rw [h.sign_eq.2 hr, h'.sign_eq.2 hr]
    · exact hs hr
    · rw [h.sign_eq.1 hr, h'.sign_eq.1 hr]
  cases h with
  | inf hl p n =>
    cases h' with
    | inf => exact congrArg Flt.inf hsign
    | fin hv hl' => exact absurd hl (not_le.2 hl')
  | @fin s m e hv hl nr ti p n =>
    cases h' with
    | inf hl' => exact absurd hl' (not_le.2 hl)
    | @fin s' m' e' hv' hl' nr' ti' p' n' =>
      have hval := RoundsTo.val_unique hf (.fin hv hl nr ti p n) (.fin hv' hl' nr' ti' p' n')
      have e1 : s = s' := hsign
      subst e1
      have : (m : ℚ) * 2 ^ e = m' * 2 ^ e' := by
        rw [← Flt.val_abs s m e, ← Flt.val_abs s m' e', hval]
      obtain ⟨rfl, rfl⟩ := valid_inj (by have := hf.prec; omega) hv hv' this
      rfl

/-! ## Exact cases -/

theorem Has.lt_limit {f : Fmt} {q : ℚ} (h : f.Has q) : |q| < f.limit := by
  obtain ⟨m, e, h1, h2, h3, h4⟩ := h
  have hq : |q| = (m : ℚ) * 2 ^ e := by
    have h : (0 : ℚ) ≤ (m : ℚ) * 2 ^ e := mul_nonneg (Nat.cast_nonneg _) (two_zpow_pos _).le
    rcases h4 with rfl | rfl
    · exact abs_of_nonneg h
    · rw [abs_neg]; exact abs_of_nonneg h
  rw [hq]
  unfold Fmt.limit
  have h5 : (m : ℚ) ≤ 2 ^ f.prec - 1 := by
    have : (m : ℚ) + 1 ≤ 2 ^ f.prec := by exact_mod_cast h1
    linarith
  have h6 : (2 : ℚ) ^ e ≤ 2 ^ f.emax := zpow_le_zpow_right₀ (by norm_num) h3
  have h7 := two_zpow_pos f.emax
  calc (m : ℚ) * 2 ^ e ≤ m * 2 ^ f.emax := mul_le_mul_of_nonneg_left h6 (Nat.cast_nonneg _)
    _ ≤ (2 ^ f.prec - 1) * 2 ^ f.emax := mul_le_mul_of_nonneg_right h5 h7.le
    _ < _ := by nlinarith

/-- Numbers of the format round to themselves. -/
theorem RoundsTo.exact {f : Fmt} {r : ℚ} {x : Flt} (h : RoundsTo f r x) (hr : f.Has r) : x.isFinite = true ∧ x.val = r := by
  cases h with
  | inf hl => exact absurd hl (not_le.2 (Has.lt_limit hr))
  | fin hv hl nr =>
    have := nr r hr
    rw [sub_self, abs_zero, abs_nonpos_iff, sub_eq_zero] at this
    exact ⟨rfl, this⟩

/-- A valid float is the rounding of its value. -/
theorem RoundsTo.self {f : Fmt} {s : Bool} {m : Nat} {e : Int} (hv : (Flt.fin s m e).Valid f) : RoundsTo f (Flt.fin s m e).val (.fin s m e) := by
  have h0 : (0 : ℚ) ≤ (m : ℚ) * 2 ^ e := mul_nonneg (Nat.cast_nonneg _) (two_zpow_pos _).le
  refine .fin hv (Has.lt_limit (valid_has hv)) (fun q _ => by simp) (fun q _ hne h => ?_) (fun h => ?_) (fun h => ?_)
  · rw [sub_self, abs_zero] at h
    exact absurd (sub_eq_zero.1 (abs_eq_zero.1 h.symm)) hne
  · cases s
    · rfl
    · rw [Flt.val_of_sign, if_pos rfl] at h; linarith
  · cases s
    · rw [Flt.val_of_sign] at h; simp only [Bool.false_eq_true, if_false] at h; linarith
    · rfl

theorem RoundsTo.neg {f : Fmt} {r : ℚ} {x : Flt} (h : RoundsTo f r x) : RoundsTo f (-r) x.neg := by
  cases h with
  | @inf s hl p n =>
    refine .inf (by rwa [abs_neg]) (fun h => ?_) (fun h => ?_)
    · rw [n (by linarith)]; rfl
    · rw [p (by linarith)]; rfl
  | @fin s m e hv hl nr ti p n =>
    have hval : (Flt.fin (!s) m e).val = -(Flt.fin s m e).val := by cases s <;> simp [Flt.val]
    have habs : ∀ q, |q - -r| = |-q - r| := by
      intro q; rw [← abs_neg]; congr 1; ring
    refine .fin hv (by rwa [abs_neg]) (fun q hq => ?_) (fun q hq hne he => ?_) (fun h => ?_) (fun h => ?_)
    · rw [hval, habs, habs, neg_neg]
      exact nr _ (Has.neg hq)
    · rw [hval, habs, habs, neg_neg] at he
      exact ti _ (Has.neg hq) (fun h => hne (by rw [hval, ← h, neg_neg])) he
    · rw [n (by linarith)]; rfl
    · rw [p (by linarith)]; rfl

/-! ## The operations round correctly -/

theorem signed_scaled (s : Bool) (m : Nat) (e : Int) (d : Nat) (hd : 0 < d) :
    signed s (m * 2 ^ e.toNat) (d * 2 ^ (-e).toNat) = (Flt.fin s m e).val / d := by
  unfold signed
  rw [mul_scaled m e d hd]
  cases s <;> simp [Flt.val, neg_div]

theorem mul_rounds {f : Fmt} (hf : f.Ok) (s t : Bool) (m m' : Nat) (e e' : Int) :
    RoundsTo f ((Flt.fin s m e).val * (Flt.fin t m' e').val) (Flt.mul f (.fin s m e) (.fin t m' e')) := by
  have h := round_correct hf (s != t) (m * m' * 2 ^ (e + e').toNat) (2 ^ (-(e + e')).toNat) (by positivity)
  have e1 := signed_scaled (s != t) (m * m') (e + e') 1 (by omega)
  rw [Nat.one_mul, Nat.cast_one, div_one] at e1
  rw [e1] at h
  have : (Flt.fin (s != t) (m * m') (e + e')).val = (Flt.fin s m e).val * (Flt.fin t m' e').val := by
    cases s <;> cases t <;> simp [Flt.val, zpow_add₀ (show (2 : ℚ) ≠ 0 by norm_num)] <;> ring
  rw [this] at h
  exact h

theorem div_rounds {f : Fmt} (hf : f.Ok) (s t : Bool) (m m' : Nat) (e e' : Int) (hm : m' ≠ 0) :
    RoundsTo f ((Flt.fin s m e).val / (Flt.fin t m' e').val) (Flt.div f (.fin s m e) (.fin t m' e')) := by
  have hm0 : 0 < m' := Nat.pos_of_ne_zero hm
  have h := round_correct hf (s != t) (m * 2 ^ (e - e').toNat) (m' * 2 ^ (-(e - e')).toNat) (by positivity)
  rw [signed_scaled (s != t) m (e - e') m' hm0] at h
  have h2 := two_zpow_pos e'
  have h3 : (0 : ℚ) < m' := by exact_mod_cast hm0
  have : (Flt.fin (s != t) m (e - e')).val / m' = (Flt.fin s m e).val / (Flt.fin t m' e').val := by
    cases s <;> cases t <;> simp [Flt.val, zpow_sub₀ (show (2 : ℚ) ≠ 0 by norm_num)] <;> field_simp
  rw [this] at h
  show RoundsTo f _ (if m' = 0 then _ else _)
  rw [if_neg hm]
  exact h

theorem cast_rounds {f : Fmt} (hf : f.Ok) (s : Bool) (m : Nat) (e : Int) :
    RoundsTo f (Flt.fin s m e).val (Flt.cast f (.fin s m e)) := by
  have h := round_correct hf s (m * 2 ^ e.toNat) (2 ^ (-e).toNat) (by positivity)
  have e1 := signed_scaled s m e 1 (by omega)
  rw [Nat.one_mul, Nat.cast_one, div_one] at e1
  rw [e1] at h
  exact h

theorem ofInt_rounds {f : Fmt} (hf : f.Ok) (z : Int) : RoundsTo f (z : ℚ) (Flt.ofInt f z) := by
  have h := round_correct hf (decide (z < 0)) z.natAbs 1 (by omega)
  have : signed (decide (z < 0)) z.natAbs 1 = (z : ℚ) := by
    unfold signed
    rcases lt_or_ge z 0 with hz | hz
    · rw [decide_eq_true hz]
      have : ((z.natAbs : Nat) : ℚ) = -(z : ℚ) := by
        have h1 : ((z.natAbs : Nat) : Int) = -z := by omega
        have : (((z.natAbs : Nat) : Int) : ℚ) = ((-z : Int) : ℚ) := by rw [h1]
        rw [Int.cast_neg] at this
        exact this
      rw [this]; simp
    · rw [decide_eq_false (by omega)]
      have : ((z.natAbs : Nat) : ℚ) = (z : ℚ) := by
        have h1 : ((z.natAbs : Nat) : Int) = z := by omega
        have : (((z.natAbs : Nat) : Int) : ℚ) = (z : ℚ) := by rw [h1]
        exact this
      rw [this]; simp
  rw [this] at h
  exact h

theorem ofNat_rounds {f : Fmt} (hf : f.Ok) (n : Nat) : RoundsTo f (n : ℚ) (Flt.ofNat f n) := by
  have h := round_correct hf false n 1 (by omega)
  have e : signed false n 1 = (n : ℚ) := by simp [signed]
  rw [e] at h
  exact h

end Miniserde
