import Verif.Props.Float
import Verif.Props.Typed
import Verif.Proof.Prefix
import Verif.Proof.FloatExact

/-!
# C03: which numbers are out of range

`C03_accepts` says that `Value` accepts a JSON text exactly when all its numbers are delivered.  Here this is said in terms of the values of the literals alone.
-/

namespace Miniserde

mutual

/-- The number literals of a tree, from left to right. -/
def Json.nums : Json → List NumLit
  | .num l => [l]
  | .arr xs => Json.numsL xs
  | .obj ms => Json.numsM ms
  | _ => []

def Json.numsL : List Json → List NumLit
  | [] => []
  | x :: xs => x.nums ++ Json.numsL xs

def Json.numsM : List (Bytes × Json) → List NumLit
  | [] => []
  | (_, x) :: ms => x.nums ++ Json.numsM ms

end

mutual

theorem representable_nums : ∀ j : Json, representable j = true ↔ ∀ l ∈ j.nums, (numEvent l).isOk = true
  | .null => by simp [representable, Json.nums]
  | .bool _ => by simp [representable, Json.nums]
  | .str _ => by simp [representable, Json.nums]
  | .num l => by simp [representable, Json.nums]
  | .arr xs => by simp only [representable, Json.nums]; exact representables_nums xs
  | .obj ms => by simp only [representable, Json.nums]; exact representableMembers_nums ms

theorem representables_nums : ∀ xs : List Json, representables xs = true ↔ ∀ l ∈ Json.numsL xs, (numEvent l).isOk = true
  | [] => by simp [representables, Json.numsL]
  | x :: xs => by
    simp only [representables, Json.numsL, Bool.and_eq_true, List.mem_append, or_imp, forall_and]
    exact and_congr (representable_nums x) (representables_nums xs)

theorem representableMembers_nums : ∀ ms : List (Bytes × Json), representableMembers ms = true ↔ ∀ l ∈ Json.numsM ms, (numEvent l).isOk = true
  | [] => by simp [representableMembers, Json.numsM]
  | (k, x) :: ms => by
    simp only [representableMembers, Json.numsM, Bool.and_eq_true, List.mem_append, or_imp, forall_and]
    exact and_congr (representable_nums x) (representableMembers_nums ms)

end

mutual

theorem jvalue_nums : ∀ {t : Bytes} {j : Json}, JValue t j → ∀ l ∈ j.nums, l.WF ∧ l.text.length ≤ t.length
  | _, _, .null => by simp [Json.nums]
  | _, _, .true => by simp [Json.nums]
  | _, _, .false => by simp [Json.nums]
  | _, _, .num l h => by
    intro l' hl
    simp only [Json.nums, List.mem_singleton] at hl
    subst hl
    exact ⟨h, Nat.le_refl _⟩
  | _, _, .str _ => by simp [Json.nums]
  | _, _, .arrEmpty _ => by simp [Json.nums, Json.numsL]
  | _, _, .arr h => by
    intro l hl
    rw [Json.nums] at hl
    have := jelements_nums h l hl
    exact ⟨this.1, by simp only [List.length_cons, List.length_append]; omega⟩
  | _, _, .objEmpty _ => by simp [Json.nums, Json.numsM]
  | _, _, .obj h => by
    intro l hl
    rw [Json.nums] at hl
    have := jmembers_nums h l hl
    exact ⟨this.1, by simp only [List.length_cons, List.length_append]; omega⟩

theorem jelements_nums : ∀ {t : Bytes} {xs : List Json}, JElements t xs → ∀ l ∈ Json.numsL xs, l.WF ∧ l.text.length ≤ t.length
  | _, _, .one h₁ h h₂ => by
    intro l hl
    simp only [Json.numsL, List.append_nil] at hl
    have := jvalue_nums h l hl
    exact ⟨this.1, by simp only [List.length_append]; omega⟩
  | _, _, .cons h₁ h h₂ hs => by
    intro l hl
    rw [Json.numsL, List.mem_append] at hl
    rcases hl with hl | hl
    · have := jvalue_nums h l hl
      exact ⟨this.1, by simp only [List.length_append]; omega⟩
    · have := jelements_nums hs l hl
      exact ⟨this.1, by simp only [List.length_append, List.length_cons]; omega⟩

theorem jmembers_nums : ∀ {t : Bytes} {ms : List (Bytes × Json)}, JMembers t ms → ∀ l ∈ Json.numsM ms, l.WF ∧ l.text.length ≤ t.length
  | _, _, .one h₁ hk h₂ h₃ h h₄ => by
    intro l hl
    simp only [Json.numsM, List.append_nil] at hl
    have := jvalue_nums h l hl
    exact ⟨this.1, by simp only [List.length_append, List.length_cons]; omega⟩
  | _, _, .cons h₁ hk h₂ h₃ h h₄ hs => by
    intro l hl
    rw [Json.numsM, List.mem_append] at hl
    rcases hl with hl | hl
    · have := jvalue_nums h l hl
      exact ⟨this.1, by simp only [List.length_append, List.length_cons]; omega⟩
    · have := jmembers_nums hs l hl
      exact ⟨this.1, by simp only [List.length_append, List.length_cons]; omega⟩

end

/-- **C03.** `from_str::<Value>` accepts every JSON text whose numbers are in the range of `f64`, in the sense of being smaller in magnitude than its limit `(2⁵³ - 1/2)·2⁹⁷¹` (less four units of `2⁻⁵³`,
relative). -/
theorem C03_in_range (E : Env) (s : Bytes) (j : Json) (h : JText s j) (hs : s.length ≤ 2147482700)
    (hn : ∀ l ∈ j.nums, |l.value| < binary64.limit * (1 - 4 * 2 ^ (-53 : Int))) : ∃ v, parseAs E .value s = some (.ok v) := by
  refine (C03_accepts E s).2 ⟨j, h, (representable_nums j).2 fun l hl => ?_⟩
  obtain ⟨w₁, t, w₂, rfl, -, hv, -⟩ := h
  obtain ⟨hw, hlen⟩ := jvalue_nums hv l hl
  simp only [List.length_append] at hs
  by_cases hi : l.isInt
  · obtain ⟨ev, he, -⟩ := numEvent_isInt hi
    rw [he]; rfl
  · rcases numEvent_near hw hi (by omega) with ⟨-, h2⟩ | ⟨m, e, h1, -⟩
    · have := hn l hl
      rw [← eps_pow, NumLit.abs_value] at this
      exact absurd this (not_lt.2 h2)
    · rw [h1]; rfl

set_option exponentiation.threshold 2000 in
/-- **C03.** It rejects every JSON text with a number beyond that limit (plus eight units). -/
theorem C03_out_of_range (E : Env) (s : Bytes) (j : Json) (h : JText s j) (hs : s.length ≤ 2147482700) (l : NumLit) (hl : l ∈ j.nums)
    (hn : binary64.limit * (1 + 8 * 2 ^ (-53 : Int)) ≤ |l.value|) : parseAs E .value s = some .err := by
  rcases C05_returns E .value s (by norm_num; omega) with ⟨v, hv⟩ | hv
  · exfalso
    obtain ⟨j', hj', hr⟩ := (C03_accepts E s).1 ⟨v, hv⟩
    have hok := (representable_nums j).1 (JText.unique hj' h ▸ hr) l hl
    obtain ⟨w₁, t, w₂, rfl, -, hv, -⟩ := h
    obtain ⟨hw, hlen⟩ := jvalue_nums hv l hl
    simp only [List.length_append] at hs
    rw [← eps_pow, NumLit.abs_value] at hn
    have hL := u64_lt_limit
    have hL0 : 0 < binary64.limit := Fmt.limit_pos
    have heps := eps_pos
    by_cases hi : l.isInt
    · have ha : l.absValue = (digitsVal l.int : ℚ) := by
        unfold NumLit.absValue
        simp [hi.2.1, hi.2.2]
      have hb : ((digitsVal l.int : Nat) : ℚ) ≤ ((u64Max : Nat) : ℚ) := by exact_mod_cast hi.1
      have hu : ((u64Max : Nat) : ℚ) < 2 ^ (66 : Int) := by unfold u64Max; norm_num
      have : binary64.limit ≤ binary64.limit * (1 + 8 * eps) := by nlinarith
      rw [ha] at hn
      linarith
    · rcases numEvent_near hw hi (by omega) with ⟨h1, -⟩ | ⟨m, e, h1, hV, h2⟩
      · rw [h1] at hok; cases hok
      · have h3 := Has.lt_limit (valid_has hV)
        have h4 : |(Flt.fin l.minus m e).val| = (m : ℚ) * 2 ^ e := by
          have : (0 : ℚ) ≤ (m : ℚ) * 2 ^ e := mul_nonneg (Nat.cast_nonneg _) (two_zpow_pos _).le
          unfold Flt.val
          cases l.minus <;> simp [abs_of_nonneg this]
        rw [h4] at h3
        have h5 := (abs_le.1 h2).1
        have heta : 2 * eta < 1 := by unfold eta; norm_num
        have hle : (2 : ℚ) ^ (66 : Int) * eps > 1 := by unfold eps; norm_num
        have h6 : binary64.limit * eps > 1 := lt_trans hle (mul_lt_mul_of_pos_right hL heps)
        have hsmall : eps < 1 / 100 := by unfold eps; norm_num
        have h7 : binary64.limit * (1 + 8 * eps) * (1 - 6 * eps) ≤ l.absValue * (1 - 6 * eps) := mul_le_mul_of_nonneg_right hn (by linarith)
        have h8 : binary64.limit * (1 + 8 * eps) * (1 - 6 * eps) = binary64.limit + binary64.limit * eps * (2 - 48 * eps) := by ring
        have h9 : binary64.limit * eps * 1 ≤ binary64.limit * eps * (2 - 48 * eps) := mul_le_mul_of_nonneg_left (by linarith) (by positivity)
        nlinarith
  · exact hv

set_option exponentiation.threshold 2000 in
/-- In particular everything up to `10³⁰⁸` is in range. -/
theorem ten308_in_range : (10 : ℚ) ^ (308 : Int) < binary64.limit * (1 - 4 * 2 ^ (-53 : Int)) := by
  unfold Fmt.limit binary64
  norm_num

set_option exponentiation.threshold 2000 in
example (E : Env) : ∃ v, parseAs E .value exObj = some (.ok v) := by
  refine C03_in_range E exObj _ exObj_text (by decide) fun l hl => ?_
  refine lt_of_le_of_lt ?_ ten308_in_range
  simp only [exObjMembers, Json.nums, Json.numsM, Json.numsL, List.append_nil, List.cons_append, List.nil_append, List.mem_cons, List.not_mem_nil, or_false, or_self] at hl
  subst hl
  have : (litOne).value = 1 := by decide +kernel
  rw [this]
  norm_num [one_le_zpow₀]

end Miniserde
