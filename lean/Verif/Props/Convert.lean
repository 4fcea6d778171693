import Verif.Proof.Convert
import Verif.Props.Order

/-!
# C83: exactly which `f64` is read
-/

namespace Miniserde

/-- **C83.** What any visitor gets for a literal with a fraction or an exponent, or too long for `u64`: the float given by `Converts`, with the sign of the literal; or the parse
fails, if and only if that overflows. -/
theorem C83_delivered {σ : Type} (P : Proto σ) (v : P.V) (w : σ) (s : Bytes) (l : NumLit) (h : JText s (.num l)) (hs : s.length ≤ 2147482700)
    (hi : u64Max < digitsVal l.int ∨ l.frac ≠ none ∨ l.exp ≠ none) :
    (fromStrImpl P s v w = some (.err, w) ∧ Converts l.used.1 (l.used.2 + l.exp.elim 0 ExpPart.value) none) ∨
    ∃ x y : F64, fromStrImpl P s v w = some (P.float v x w) ∧ Converts l.used.1 (l.used.2 + l.exp.elim 0 ExpPart.value) (some y) ∧
      y.isFinite = true ∧ x.val = (if l.minus then -1 else 1) * y.val := by
  obtain ⟨hw, hl⟩ := jtext_num h
  have hi' : ¬ l.isInt := by
    rintro ⟨h1, h2, h3⟩
    rcases hi with hi | hi | hi
    · omega
    · exact hi h2
    · exact hi h3
  rw [C02_traverses_the_tree P v w s _ h]
  simp only [drive, driveNum]
  rcases numEvent_converts hi' (by omega) with ⟨he, hc⟩ | ⟨x, y, he, hc⟩
  · left
    rw [he]
    exact ⟨rfl, hc⟩
  · right
    rw [he]
    exact ⟨x, y, rfl, hc⟩

/-- **C83.** The specification leaves no choice: the same digits and the same power of ten give the same number, or both overflow. -/
theorem C83_function {n : Nat} {k : Int} {r r' : Option F64} (h : Converts n k r) (h' : Converts n k r') : r.map Flt.val = r'.map Flt.val := by
  obtain ⟨a, ha, hs⟩ := h
  obtain ⟨a', ha', hs'⟩ := h'
  exact hs.unique hs' (ha.same binary64_ok ha').1

/-- **C83.** If the digits fit into a `u64`, all of them are used. -/
theorem C83_all_digits (l : NumLit) (h : l.Fits) : l.used = (digitsVal (l.int ++ l.frac.getD []), -((l.frac.getD []).length : Int)) := by
  rw [used_sigExp]
  exact sigExp_exact h

/-- **C83.** `from_str::<f64>` of a literal with fraction or exponent, in the usual case: three roundings. -/
theorem C83_usual (E : Env) (s : Bytes) (l : NumLit) (h : JText s (.num l)) (hs : s.length ≤ 2147482700) (hi : l.frac ≠ none ∨ l.exp ≠ none)
    (hf : l.Fits) (k : Int) (hk : k = l.exp.elim 0 ExpPart.value - ((l.frac.getD []).length : Int)) (h1 : -308 ≤ k) (h2 : k ≤ 308)
    (a b x : F64) (ha : RoundsTo binary64 (digitsVal (l.int ++ l.frac.getD [])) a) (hb : RoundsTo binary64 (10 ^ |k|) b)
    (hx : RoundsTo binary64 (if 0 ≤ k then a.val * b.val else a.val / b.val) x) :
    (x.isFinite = true → ∃ x', parseAs E .f64 s = some (.ok (.f64 x')) ∧ x'.sign = l.minus ∧ x'.val = (if l.minus then -1 else 1) * x.val) ∧
    (x.isFinite = false → parseAs E .f64 s = some .err) := by
  obtain ⟨hw, hl⟩ := jtext_num h
  have hi' : ¬ l.isInt := by rintro ⟨-, h2, h3⟩; rcases hi with hi | hi; exact hi h2; exact hi h3
  have hcv : Scales a k (if 0 ≤ k ∧ x.isFinite = false then none else some x) := by
    by_cases hk0 : 0 ≤ k
    · rw [if_pos hk0] at hx
      rw [abs_of_nonneg hk0] at hb
      cases hfx : x.isFinite with
      | true => simp only [hk0, Bool.true_eq_false, and_false, if_false]; exact .mul hk0 h2 hb hx hfx
      | false => simp only [hk0, and_self, if_true]; exact .over hk0 h2 hb hx hfx
    · rw [if_neg hk0] at hx
      rw [abs_of_neg (by omega)] at hb
      simp only [hk0, false_and, if_false]
      exact .div (by omega) h1 hb hx
  have hC : Converts (digitsVal (l.int ++ l.frac.getD [])) k (if 0 ≤ k ∧ x.isFinite = false then none else some x) := ⟨a, ha, hcv⟩
  have hu := C83_all_digits l hf
  have hkk : l.used.2 + l.exp.elim 0 ExpPart.value = k := by rw [hu, hk]; ring
  have key := numEvent_converts hi' (by omega)
  rw [hkk, hu] at key
  simp only at key
  have hdivfin : ¬ 0 ≤ k → x.isFinite = true := by
    intro hk0
    rw [if_neg hk0] at hx
    have hF : Flt.Pos (Flt.ofNat binary64 (digitsVal (l.int ++ l.frac.getD []))) := ofNat_pos hf
    have e1 := (ha.same binary64_ok (ofNat_rounds binary64_ok _)).1
    have en : (-k).natAbs < 309 := by omega
    obtain ⟨p, q, ep, hp, hp1⟩ := pow10_pos en
    have hb2 := pow10_rounds (k := -k) (by omega)
    rw [abs_of_neg (by omega)] at hb
    have e2 := (hb.same binary64_ok hb2).1
    rw [e1, e2, ep] at hx
    have hd := (div_mono hF hF ep hp (by rw [ep]; exact hp1) (le_refl _)).1
    rw [ep] at hd
    obtain ⟨m, e, em, -⟩ := hF
    rw [em] at hx hd
    rw [(hx.same binary64_ok (div_rounds binary64_ok false false m p e q hp)).2]
    exact hd.finite
  refine ⟨fun hfx => ?_, fun hfx => ?_⟩
  · rw [if_neg (by rw [hfx]; simp)] at hC
    rcases key with ⟨-, hn⟩ | ⟨x', y, he, hy, -, hv⟩
    · have := C83_function hC hn; cases this
    · have hxy := C83_function hC hy
      simp only [Option.map_some, Option.some.injEq] at hxy
      refine ⟨x', parse_num E h (.inr (.inl rfl)) he rfl, ?_, by rw [hv, hxy]⟩
      rcases numEvent_range he with ⟨n, e, -⟩ | ⟨z, e, -⟩ | ⟨m, e, e', -⟩
      · cases e
      · cases e
      · cases e'; rfl
  · have hk0 : 0 ≤ k := by by_contra hk0; rw [hdivfin hk0] at hfx; cases hfx
    rw [if_pos ⟨hk0, hfx⟩] at hC
    rcases key with ⟨he, -⟩ | ⟨x', y, he, hy, -, hv⟩
    · exact parse_num_err E h (by omega) (.inr (.inl rfl)) he
    · have := C83_function hC hy; cases this

/-- `3e23` meets the hypotheses: `3`, the `f64` below `10²³`, and the `f64` below `3·10²³`. -/
example : ∃ a b x : F64, RoundsTo binary64 ((3 : Nat) : ℚ) a ∧ RoundsTo binary64 (10 ^ |(23 : Int)|) b ∧ RoundsTo binary64 (a.val * b.val) x ∧ x.isFinite = true ∧
    x = .fin false 8940696716308593 25 := by
  have e1 : Flt.ofNat binary64 3 = .fin false 6755399441055744 (-51) := by decide +kernel
  have e2 : Flt.pow10Lit 23 = .fin false 5960464477539062 24 := by decide +kernel
  have e3 : Flt.mul binary64 (.fin false 6755399441055744 (-51)) (.fin false 5960464477539062 24) = .fin false 8940696716308593 25 := by decide +kernel
  refine ⟨.fin false 6755399441055744 (-51), .fin false 5960464477539062 24, _, e1 ▸ ofNat_rounds binary64_ok 3, ?_, e3 ▸ mul_rounds binary64_ok false false _ _ _ _, rfl, rfl⟩
  have := pow10_rounds (k := 23) (by omega)
  rw [show (23 : Int).natAbs = 23 from rfl, e2] at this
  simpa using this

/-- A digit after the point can take the place of one before it: of `18446744073709551616.0` the digits `18446744073709551610` are used. -/
example : NumLit.used ⟨false, str! "18446744073709551616", some (str! "0"), none⟩ = (18446744073709551610, 0) := by decide +kernel

end Miniserde
