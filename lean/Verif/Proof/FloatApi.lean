import Verif.Proof.FloatBack
import Verif.Proof.TypeSound
import Verif.Proof.CheckNum
import Verif.Props.Typed
import Verif.Props.Ser

/-!
# Number literals at the API
-/

namespace Miniserde

theorem jtext_num {s : Bytes} {l : NumLit} (h : JText s (.num l)) : l.WF ∧ l.text.length ≤ s.length := by
  obtain ⟨w₁, t, w₂, rfl, -, hv, -⟩ := h
  cases hv with
  | num _ h => refine ⟨h, ?_⟩; simp only [List.length_append]; omega

theorem eps_pow : eps = (2 : ℚ) ^ (-53 : Int) := by unfold eps; norm_num
theorem eta_pow : 2 * eta = (2 : ℚ) ^ (-1074 : Int) := by
  unfold eta
  rw [mul_comm, ← zpow_add_one₀ (by norm_num)]; rfl

theorem NumLit.abs_value (l : NumLit) : |l.value| = l.absValue := by
  unfold NumLit.value
  have := l.absValue_nonneg
  cases l.minus <;> simp [abs_of_nonneg this]

/-- Errors do not depend on the common sign. -/
theorem signed_err (l : NumLit) (m : Nat) (e : Int) : |(Flt.fin l.minus m e).val - l.value| = |(m : ℚ) * 2 ^ e - l.absValue| := by
  unfold NumLit.value Flt.val
  cases l.minus
  · simp
  · simp only [if_true]
    rw [← abs_neg]; congr 1; ring

/-! ## Types a number is decoded at -/

theorem decode_num {E : Env} {l : NumLit} {t : Ty} (ht : t = .f32 ∨ t = .f64 ∨ t = .number ∨ t = .value) :
    decode E (.num l) t = match numEvent l with | .ok ev => decodeNum ev t | _ => none := by
  unfold decode
  rcases ht with rfl | rfl | rfl | rfl <;> rfl

theorem parse_num (E : Env) {s : Bytes} {l : NumLit} (h : JText s (.num l)) {t : Ty} (ht : t = .f32 ∨ t = .f64 ∨ t = .number ∨ t = .value)
    {ev : Event} (he : numEvent l = .ok ev) {v : Val} (hv : decodeNum ev t = some v) : parseAs E t s = some (.ok v) := by
  rw [parseAs_ok]
  refine ⟨_, h, ?_⟩
  rw [decode_num ht, he]
  exact hv

theorem parse_num_err (E : Env) {s : Bytes} {l : NumLit} (h : JText s (.num l)) (hs : s.length < 2 ^ 31) {t : Ty}
    (ht : t = .f32 ∨ t = .f64 ∨ t = .number ∨ t = .value) (he : numEvent l = .err) : parseAs E t s = some .err := by
  rw [(C04_compositional E t s hs).1 _ h, decode_num ht, he]

/-- Only number texts decode at the float types and `Number`. -/
theorem parse_num_only (E : Env) {s : Bytes} {t : Ty} (ht : t = .f32 ∨ t = .f64 ∨ t = .number) {v : Val} (h : parseAs E t s = some (.ok v)) :
    ∃ l ev, JText s (.num l) ∧ numEvent l = .ok ev ∧ decodeNum ev t = some v := by
  rw [parseAs_ok] at h
  obtain ⟨j, hj, hd⟩ := h
  cases j with
  | num l =>
    rw [decode_num (by rcases ht with h | h | h <;> simp [h])] at hd
    cases hn : numEvent l with
    | ok ev => rw [hn] at hd; exact ⟨l, ev, hj, hn, hd⟩
    | err => rw [hn] at hd; cases hd
    | panic => rw [hn] at hd; cases hd
  | _ => unfold decode at hd; rcases ht with rfl | rfl | rfl <;> cases hd

/-- The value of a delivered number. -/
def Event.numVal : Event → ℚ
  | .negative n => n
  | .nonnegative n => n
  | .float x => x.val
  | _ => 0

theorem decode_number {ev : Event} {v : Val} (h : decodeNum ev .number = some v) : v.numVal = ev.numVal := by
  cases ev <;> cases h <;> rfl

theorem decode_f64 {ev : Event} {v : Val} (hr : ev.InRange) (h : decodeNum ev .f64 = some v) :
    ∃ x, v = .f64 x ∧ RoundsTo binary64 ev.numVal x := by
  cases ev with
  | negative n => cases h; exact ⟨_, rfl, ofInt_rounds binary64_ok n⟩
  | nonnegative n => cases h; exact ⟨_, rfl, ofNat_rounds binary64_ok n⟩
  | float x =>
    cases h
    refine ⟨x, rfl, ?_⟩
    match x, hr with
    | .fin s m e, hr => exact RoundsTo.self hr.2
    | .inf _, hr => cases hr.1
    | .nan, hr => cases hr.1
  | _ => cases h

theorem decode_f32 {ev : Event} {v : Val} (hr : ev.InRange) (h : decodeNum ev .f32 = some v) :
    ∃ x, v = .f32 x ∧ RoundsTo binary32 ev.numVal x := by
  cases ev with
  | negative n => cases h; exact ⟨_, rfl, ofInt_rounds binary32_ok n⟩
  | nonnegative n => cases h; exact ⟨_, rfl, ofNat_rounds binary32_ok n⟩
  | float x =>
    cases h
    refine ⟨_, rfl, ?_⟩
    match x, hr with
    | .fin s m e, _ => exact cast_rounds binary32_ok s m e
    | .inf _, hr => cases hr.1
    | .nan, hr => cases hr.1
  | _ => cases h

theorem numEvent_inRange {l : NumLit} {ev : Event} (h : numEvent l = .ok ev) : ev.InRange := by
  rcases numEvent_range h with ⟨n, rfl, hn, -⟩ | ⟨z, rfl, h1, h2, -⟩ | ⟨m, e, rfl, hv⟩
  · exact hn
  · exact ⟨h1, h2⟩
  · exact ⟨rfl, hv⟩

/-- An integer literal in range is delivered with its exact value, or rounded correctly. -/
theorem numEvent_isInt {l : NumLit} (h : l.isInt) :
    ∃ ev, numEvent l = .ok ev ∧ (ev.numVal = l.value ∨ ∃ x, ev = .float x ∧ RoundsTo binary64 l.value x) := by
  have hd : l.digits = digitsVal l.int := NumLit.digits_int h.2.1
  have hsc : l.scale = 0 := by unfold NumLit.scale; rw [h.2.1, h.2.2]; rfl
  have hv : l.value = (if l.minus then -1 else 1) * (digitsVal l.int : ℚ) := by
    rw [NumLit.value_eq, hd, hsc]; simp
  rw [numEvent_int h.2.1 h.2.2, if_pos h.1]
  by_cases hm : l.minus = true
  · rw [if_pos hm]
    rw [if_pos hm] at hv
    split
    · refine ⟨_, rfl, .inl ?_⟩
      rw [hv]; simp [Event.numVal]
    · refine ⟨_, rfl, .inr ⟨_, rfl, ?_⟩⟩
      have := (ofNat_rounds binary64_ok (digitsVal l.int)).neg
      rw [hv]; simpa using this
  · rw [if_neg hm]
    rw [if_neg hm] at hv
    refine ⟨_, rfl, .inl ?_⟩
    rw [hv]; simp [Event.numVal]

/-- Correct rounding implies the error bound. -/
theorem RoundsTo.bound64 {r : ℚ} {x : Flt} (h : RoundsTo binary64 r x) (hx : x.isFinite = true) : |x.val - r| ≤ eps * |r| + eta := by
  obtain ⟨s, m, e, rfl⟩ : ∃ s m e, x = .fin s m e := by
    match x, hx with
    | .fin s m e, _ => exact ⟨s, m, e, rfl⟩
  have hs := h.sign_eq
  have ho := h.outcome binary64_ok
  have hn : Near binary64 |r| ((m : ℚ) * 2 ^ e) := by cases ho; assumption
  have hb := hn.bounds.2.1
  have h0 : (0 : ℚ) ≤ (m : ℚ) * 2 ^ e := hn.nonneg
  rcases lt_trichotomy r 0 with hr | hr | hr
  · have hsg : s = true := hs.2 hr
    subst hsg
    rw [abs_of_neg hr] at hb ⊢
    rw [Flt.val_of_sign, if_pos rfl, ← abs_neg]
    refine le_trans (le_of_eq ?_) hb
    congr 1; ring
  · subst hr
    rw [abs_zero, sub_zero] at hb ⊢
    rw [Flt.val_abs]
    rwa [abs_of_nonneg h0] at hb
  · have hsg : s = false := hs.1 hr
    subst hsg
    rw [abs_of_pos hr] at hb ⊢
    rw [Flt.val_of_sign, if_neg (by simp)]
    exact hb

end Miniserde
