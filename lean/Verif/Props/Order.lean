import Verif.Proof.Order
import Verif.Props.Float
import Verif.Proof.Prefix

/-!
# C82: reading numbers preserves their order

Within one layout (the same number of digits after the point, the same exponent) a smaller number is never read as a larger float.
-/

namespace Miniserde

theorem parse_num_inv (E : Env) {s : Bytes} {l : NumLit} (h : JText s (.num l)) {t : Ty} (ht : t = .f32 ∨ t = .f64 ∨ t = .number ∨ t = .value)
    {v : Val} (hv : parseAs E t s = some (.ok v)) : ∃ ev, numEvent l = .ok ev ∧ decodeNum ev t = some v := by
  obtain ⟨j, hj, hd⟩ := (parseAs_ok E).1 hv
  cases JText.unique h hj
  rw [decode_num ht] at hd
  cases hn : numEvent l with
  | ok ev => rw [hn] at hd; exact ⟨ev, rfl, hd⟩
  | err => rw [hn] at hd; cases hd
  | panic => rw [hn] at hd; cases hd

/-- **C82.** Two number literals in the same layout whose digits fit into a `u64`: the smaller is not read as the larger, as `f64`, as `f32` and as
`Number`. -/
theorem C82_order (E : Env) (s s' : Bytes) (l l' : NumLit) (h : JText s (.num l)) (h' : JText s' (.num l')) (hs : s.length < 2 ^ 31)
    (hs' : s'.length < 2 ^ 31) (hl : l.SameLayout l') (hf : l.Fits) (hf' : l'.Fits) (hle : l.value ≤ l'.value) :
    (∀ x x', parseAs E .f64 s = some (.ok (.f64 x)) → parseAs E .f64 s' = some (.ok (.f64 x')) → x.Le x') ∧
    (∀ x x', parseAs E .f32 s = some (.ok (.f32 x)) → parseAs E .f32 s' = some (.ok (.f32 x')) → x.Le x') ∧
    (∀ v v', parseAs E .number s = some (.ok v) → parseAs E .number s' = some (.ok v') → v.numVal ≤ v'.numVal) := by
  obtain ⟨hw, hlen⟩ := jtext_num h
  obtain ⟨hw', hlen'⟩ := jtext_num h'
  have key : ∀ {ev ev'}, numEvent l = .ok ev → numEvent l' = .ok ev' → ev.numVal ≤ ev'.numVal := fun he he' =>
    numEvent_mono hl hw hw' (by omega) (by omega) hf hf' hle he he'
  refine ⟨fun x x' hx hx' => ?_, fun x x' hx hx' => ?_, fun v v' hx hx' => ?_⟩
  · obtain ⟨ev, he, hd⟩ := parse_num_inv E h (.inr (.inl rfl)) hx
    obtain ⟨ev', he', hd'⟩ := parse_num_inv E h' (.inr (.inl rfl)) hx'
    obtain ⟨y, e, hr⟩ := decode_f64 (numEvent_inRange he) hd
    obtain ⟨y', e', hr'⟩ := decode_f64 (numEvent_inRange he') hd'
    cases e; cases e'
    exact hr.mono binary64_ok hr' (key he he')
  · obtain ⟨ev, he, hd⟩ := parse_num_inv E h (.inl rfl) hx
    obtain ⟨ev', he', hd'⟩ := parse_num_inv E h' (.inl rfl) hx'
    obtain ⟨y, e, hr⟩ := decode_f32 (numEvent_inRange he) hd
    obtain ⟨y', e', hr'⟩ := decode_f32 (numEvent_inRange he') hd'
    cases e; cases e'
    exact hr.mono binary32_ok hr' (key he he')
  · obtain ⟨ev, he, hd⟩ := parse_num_inv E h (.inr (.inr (.inl rfl))) hx
    obtain ⟨ev', he', hd'⟩ := parse_num_inv E h' (.inr (.inr (.inl rfl))) hx'
    rw [decode_number hd, decode_number hd']
    exact key he he'

/-- **C82.** ... and if the number of larger magnitude is accepted, so is the smaller. -/
theorem C82_range (E : Env) (s s' : Bytes) (l l' : NumLit) (h : JText s (.num l)) (h' : JText s' (.num l')) (hs : s.length < 2 ^ 31)
    (hs' : s'.length < 2 ^ 31) (hl : l.SameLayout l') (hf' : l'.Fits) (hle : |l.value| ≤ |l'.value|) (x' : F64)
    (hx' : parseAs E .f64 s' = some (.ok (.f64 x'))) : ∃ x, parseAs E .f64 s = some (.ok (.f64 x)) := by
  obtain ⟨hw, hlen⟩ := jtext_num h
  obtain ⟨hw', hlen'⟩ := jtext_num h'
  obtain ⟨ev', he', hd'⟩ := parse_num_inv E h' (.inr (.inl rfl)) hx'
  obtain ⟨ev, he⟩ := numEvent_smaller hl hw (by omega) (by omega) hf' hle he'
  rcases numEvent_range he with ⟨n, rfl, -⟩ | ⟨z, rfl, -⟩ | ⟨m, e, rfl, -⟩ <;> exact ⟨_, parse_num E h (.inr (.inl rfl)) he rfl⟩

/-- **C82.** Changing the sign of any literal changes the sign of the `f64`, and nothing else. -/
theorem C82_negation (E : Env) (s s' : Bytes) (l : NumLit) (h : JText s (.num l)) (h' : JText s' (.num l.negated)) (hs : s.length < 2 ^ 31)
    (hs' : s'.length < 2 ^ 31) (x : F64) (hx : parseAs E .f64 s = some (.ok (.f64 x))) :
    ∃ x', parseAs E .f64 s' = some (.ok (.f64 x')) ∧ x'.val = -x.val := by
  obtain ⟨hw, hlen⟩ := jtext_num h
  obtain ⟨hw', hlen'⟩ := jtext_num h'
  obtain ⟨ev, he, hd⟩ := parse_num_inv E h (.inr (.inl rfl)) hx
  by_cases hi : l.isInt
  · obtain ⟨y, hy, hr⟩ := C16_integers E s l h hi.2.1 hi.2.2 hi.1
    rw [hx] at hy; cases hy
    obtain ⟨x', hx', hr'⟩ := C16_integers E s' l.negated h' hi.2.1 hi.2.2 hi.1
    refine ⟨x', hx', ?_⟩
    rw [negated_value] at hr'
    have hn := hr.neg
    have fx : x.isFinite = true := by cases C14_finite E _ _ _ hx; assumption
    have fx' : x'.isFinite = true := by cases C14_finite E _ _ _ hx'; assumption
    cases x with
    | fin s m e => cases x' with
      | fin s' m' e' =>
        rw [← neg_val]
        exact hr'.val_unique binary64_ok hn
      | inf _ => cases fx'
      | nan => cases fx'
    | inf _ => cases fx
    | nan => cases fx
  · obtain ⟨he0, -, -⟩ := numEvent_float_ok hi (by omega)
    rw [he] at he0
    obtain ⟨y, -, rfl⟩ := map_ok_inv he0.symm
    cases hd
    refine ⟨x.neg, parse_num E h' (.inr (.inl rfl)) (numEvent_negated hi (by omega) (by omega) he) rfl, neg_val x⟩

/-- **C82.** For short decimals (C16) the layout does not matter: the order is preserved, and equal numbers are read as equal floats. -/
theorem C82_short (E : Env) (s s' : Bytes) (l l' : NumLit) (h : JText s (.num l)) (h' : JText s' (.num l')) (hs : s.length ≤ 2147482700)
    (hs' : s'.length ≤ 2147482700)
    (hd : ∀ k ∈ [l, l'], digitsVal (k.int ++ k.frac.getD []) < 2 ^ 53 ∧ -22 ≤ (k.exp.elim 0 ExpPart.value) - ((k.frac.getD []).length : Int) ∧
      (k.exp.elim 0 ExpPart.value) - ((k.frac.getD []).length : Int) ≤ 22) :
    ∃ x x', parseAs E .f64 s = some (.ok (.f64 x)) ∧ parseAs E .f64 s' = some (.ok (.f64 x')) ∧ (l.value ≤ l'.value → x.Le x') ∧
      (l.value = l'.value → x.val = x'.val) := by
  obtain ⟨a1, a2, a3⟩ := hd l (by simp)
  obtain ⟨b1, b2, b3⟩ := hd l' (by simp)
  obtain ⟨x, hx, hr⟩ := C16_short_decimals E s l h hs a1 a2 a3
  obtain ⟨x', hx', hr'⟩ := C16_short_decimals E s' l' h' hs' b1 b2 b3
  refine ⟨x, x', hx, hx', fun hle => hr.mono binary64_ok hr' hle, fun he => ?_⟩
  have fx : x.isFinite = true := by cases C14_finite E _ _ _ hx; assumption
  have fx' : x'.isFinite = true := by cases C14_finite E _ _ _ hx'; assumption
  rw [he] at hr
  cases x with
  | fin s m e => cases x' with
    | fin s' m' e' => exact hr.val_unique binary64_ok hr'
    | inf _ => cases fx'
    | nan => cases fx'
  | inf _ => cases fx
  | nan => cases fx

/-! ## Limits of the claim, and examples -/

/-- The literal `<int>e<exp>`. -/
def expLit (int exp : Bytes) : NumLit := ⟨false, int, none, some ⟨false, none, exp⟩⟩

theorem read_exp (E : Env) {int exp : Bytes} {x : F64} (hw : (expLit int exp).WF) (hi : digitsVal int ≤ u64Max) (hx : digitsVal exp ≤ 900)
    (hlen : (expLit int exp).text.length < 2 ^ 31) (h : De.f64FromParts true (digitsVal int) (digitsVal exp) = .ok x) :
    parseAs E .f64 (expLit int exp).text = some (.ok (.f64 x)) := by
  have hd : (expLit int exp).digits = digitsVal int := NumLit.digits_int rfl
  have hv : (expLit int exp).exp.elim 0 ExpPart.value = (digitsVal exp : Int) := rfl
  have he : numEvent (expLit int exp) = .ok (.float x) := by
    rw [numEvent_scaled (by simp [NumLit.isInt, expLit]) hlen (by rw [hd]; exact hi), hd,
      expValue_eq _ _ (by simp [NumLit.fracLen, expLit]) (by simp [NumLit.fracLen, expLit]) (by rw [hv]; simp [NumLit.fracLen, expLit])
        (by rw [hv]; simp [NumLit.fracLen, expLit]; omega), hv]
    have e0 : -((expLit int exp).fracLen : Int) + (digitsVal exp : Int) = digitsVal exp := by simp [NumLit.fracLen, expLit]
    rw [e0, h]
    rfl
  exact parse_num E (num_text _ hw) (.inr (.inl rfl)) he rfl

/-- **C82, the layout matters.** `1e25` and `10e24` denote the same number and are read as different floats. -/
theorem C82_same_number_differs (E : Env) :
    (expLit (str! "1") (str! "25")).value = (expLit (str! "10") (str! "24")).value ∧
    (expLit (str! "1") (str! "25")).text = str! "1e25" ∧ (expLit (str! "10") (str! "24")).text = str! "10e24" ∧
    parseAs E .f64 (str! "1e25") = some (.ok (.f64 (.fin false 4656612873077393 31))) ∧
    parseAs E .f64 (str! "10e24") = some (.ok (.f64 (.fin false 4656612873077392 31))) := by
  refine ⟨?_, rfl, rfl, ?_, ?_⟩
  · have e1 : (expLit (str! "1") (str! "25")).value = 1 * 10 ^ (25 : Int) := by
      rw [NumLit.value_eq]
      have a : (expLit (str! "1") (str! "25")).digits = 1 := by decide +kernel
      have b : (expLit (str! "1") (str! "25")).scale = 25 := by decide +kernel
      rw [a, b]; simp [expLit]
    have e2 : (expLit (str! "10") (str! "24")).value = 10 * 10 ^ (24 : Int) := by
      rw [NumLit.value_eq]
      have a : (expLit (str! "10") (str! "24")).digits = 10 := by decide +kernel
      have b : (expLit (str! "10") (str! "24")).scale = 24 := by decide +kernel
      rw [a, b]; simp [expLit]
    rw [e1, e2]; norm_num
  · exact read_exp E (int := str! "1") (exp := str! "25") ⟨by decide, by decide, by simp [expLit], fun x h => by cases h; decide⟩ (by decide +kernel) (by decide +kernel) (by decide)
      (fromParts_of_loop (nn := true) (by rw [De.f64Loop]; decide +kernel))
  · exact read_exp E (int := str! "10") (exp := str! "24") ⟨by decide, by decide, by simp [expLit], fun x h => by cases h; decide⟩ (by decide +kernel) (by decide +kernel) (by decide)
      (fromParts_of_loop (nn := true) (by rw [De.f64Loop]; decide +kernel))

/-- **C82, the layout matters.** `10e32` is smaller than `10000000000000001e17` and is read as the larger float. -/
theorem C82_order_differs (E : Env) :
    (expLit (str! "10") (str! "32")).value < (expLit (str! "10000000000000001") (str! "17")).value ∧
    (expLit (str! "10") (str! "32")).text = str! "10e32" ∧ (expLit (str! "10000000000000001") (str! "17")).text = str! "10000000000000001e17" ∧
    parseAs E .f64 (str! "10e32") = some (.ok (.f64 (.fin false 6938893903907229 57))) ∧
    parseAs E .f64 (str! "10000000000000001e17") = some (.ok (.f64 (.fin false 6938893903907228 57))) := by
  refine ⟨?_, rfl, rfl, ?_, ?_⟩
  · have e1 : (expLit (str! "10") (str! "32")).value = 10 * 10 ^ (32 : Int) := by
      rw [NumLit.value_eq]
      have a : (expLit (str! "10") (str! "32")).digits = 10 := by decide +kernel
      have b : (expLit (str! "10") (str! "32")).scale = 32 := by decide +kernel
      rw [a, b]; simp [expLit]
    have e2 : (expLit (str! "10000000000000001") (str! "17")).value = 10000000000000001 * 10 ^ (17 : Int) := by
      rw [NumLit.value_eq]
      have a : (expLit (str! "10000000000000001") (str! "17")).digits = 10000000000000001 := by decide +kernel
      have b : (expLit (str! "10000000000000001") (str! "17")).scale = 17 := by decide +kernel
      rw [a, b]; simp [expLit]
    rw [e1, e2]; norm_num
  · exact read_exp E (int := str! "10") (exp := str! "32") ⟨by decide, by decide, by simp [expLit], fun x h => by cases h; decide⟩ (by decide +kernel) (by decide +kernel) (by decide)
      (fromParts_of_loop (nn := true) (by rw [De.f64Loop]; decide +kernel))
  · exact read_exp E (int := str! "10000000000000001") (exp := str! "17") ⟨by decide, by decide, by simp [expLit], fun x h => by cases h; decide⟩ (by decide +kernel) (by decide +kernel) (by decide)
      (fromParts_of_loop (nn := true) (by rw [De.f64Loop]; decide +kernel))

/-- **C82, negation and `f32`.** A large integer is rounded once, its negative twice (first to `f64`): `C82_negation` does not hold for `f32`. -/
theorem C82_f32_negation_differs (E : Env) :
    parseAs E .f32 (str! "9223372586610589697") = some (.ok (.f32 (.fin false 8388609 40))) ∧
    parseAs E .f32 (str! "-9223372586610589697") = some (.ok (.f32 (.fin true 8388608 40))) := by
  constructor
  · refine parse_num E (num_text ⟨false, str! "9223372586610589697", none, none⟩ ⟨by decide, by decide, by simp, by simp⟩) (.inl rfl)
      (ev := .nonnegative 9223372586610589697) (by rw [numEvent_int rfl rfl]; decide +kernel) ?_
    show some (Val.f32 _) = _
    congr 2
  · refine parse_num E (num_text ⟨true, str! "9223372586610589697", none, none⟩ ⟨by decide, by decide, by simp, by simp⟩) (.inl rfl)
      (ev := .float (Flt.ofNat binary64 9223372586610589697).neg) (by rw [numEvent_int rfl rfl]; decide +kernel) ?_
    show some (Val.f32 _) = _
    congr 2

/-- Prices with two decimals meet the hypotheses of `C82_order` and `C82_short`: `-19.99` and `5.10`. -/
example : ∃ l l' : NumLit, JText (str! "-19.99") (.num l) ∧ JText (str! "5.10") (.num l') ∧ l.SameLayout l' ∧ l.Fits ∧ l'.Fits ∧ l.value < l'.value := by
  refine ⟨⟨true, str! "19", some (str! "99"), none⟩, ⟨false, str! "5", some (str! "10"), none⟩,
    num_text ⟨true, str! "19", some (str! "99"), none⟩ ⟨by decide, by decide, fun x h => by cases h; decide, by simp⟩,
    num_text ⟨false, str! "5", some (str! "10"), none⟩ ⟨by decide, by decide, fun x h => by cases h; decide, by simp⟩, ⟨rfl, rfl⟩,
    show digitsVal _ ≤ _ by decide +kernel, show digitsVal _ ≤ _ by decide +kernel, ?_⟩
  rw [NumLit.value_eq, NumLit.value_eq]
  have a : NumLit.digits ⟨true, str! "19", some (str! "99"), none⟩ = 1999 := by decide +kernel
  have b : NumLit.digits ⟨false, str! "5", some (str! "10"), none⟩ = 510 := by decide +kernel
  have c : NumLit.scale ⟨true, str! "19", some (str! "99"), none⟩ = -2 := by decide +kernel
  have d : NumLit.scale ⟨false, str! "5", some (str! "10"), none⟩ = -2 := by decide +kernel
  rw [a, b, c, d]; norm_num

/-- `C82_negation` applies to `12345678901234567890123e-5` and its negative. -/
example : ∃ l : NumLit, JText (str! "12345678901234567890123e-5") (.num l) ∧ JText (str! "-12345678901234567890123e-5") (.num l.negated) :=
  ⟨⟨false, str! "12345678901234567890123", none, some ⟨false, some true, str! "5"⟩⟩,
    num_text ⟨false, str! "12345678901234567890123", none, some ⟨false, some true, str! "5"⟩⟩ ⟨by decide, by decide, by simp, fun x h => by cases h; decide⟩,
    num_text ⟨true, str! "12345678901234567890123", none, some ⟨false, some true, str! "5"⟩⟩ ⟨by decide, by decide, by simp, fun x h => by cases h; decide⟩⟩

end Miniserde
