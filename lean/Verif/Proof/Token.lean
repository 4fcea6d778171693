import Verif.Proof.Num
import Verif.Proof.StrLoop

/-!
# Tokens: `event` reads exactly one token
-/

namespace Miniserde
namespace De

/-! ## Panics only on inputs of at least 2 GiB -/

theorem f64Loop_ne_panic (f : F64) (e : Int) : f64Loop f e ≠ .panic := by
  fun_induction f64Loop f e <;> simp_all [POW10] <;> omega

theorem f64FromParts_ne_panic (nn : Bool) (s : Nat) (e : Int) : f64FromParts nn s e ≠ .panic := by
  unfold f64FromParts
  have := f64Loop_ne_panic (Flt.ofNat binary64 s) e
  cases h : f64Loop (Flt.ofNat binary64 s) e <;> simp_all

theorem expValue_ne_panic (nn : Bool) (s : Nat) (e : Int) (x : Option ExpPart) : expValue nn s e x ≠ .panic := by
  unfold expValue
  split
  · exact f64FromParts_ne_panic _ _ _
  · simp only
    split
    · split <;> simp
    · exact f64FromParts_ne_panic _ _ _

theorem i32_eq_panic {z : Int} : i32 z = .panic ↔ ¬ (I32_MIN ≤ z ∧ z ≤ I32_MAX) := by
  unfold i32; split <;> simp_all

theorem i32_ne_err {z : Int} : i32 z ≠ .err := by
  unfold i32; split <;> simp

theorem fracValue_panic {nn : Bool} {s : Nat} {e : Int} {x : Option ExpPart} {fo : Option Bytes}
    (he : 0 ≤ e ∧ e ≤ I32_MAX) (h : fracValue nn s e x fo = .panic) : 2147483648 ≤ (fracText fo).length := by
  unfold fracValue at h
  split at h
  · exact absurd h (expValue_ne_panic _ _ _ _)
  · rename_i fs
    simp only at h
    cases hi : i32 (e - ((fs.length - (accum U64_MAX s fs).2 : Nat) : Int)) with
    | ok e' => rw [hi] at h; exact absurd h (expValue_ne_panic _ _ _ _)
    | err => exact absurd hi i32_ne_err
    | panic =>
      rw [i32_eq_panic] at hi
      simp only [I32_MIN, I32_MAX] at *
      simp [fracText]
      omega

theorem numEvent_panic {l : NumLit} (h : numEvent l = .panic) : 2147483648 ≤ l.text.length := by
  have hl := accum_left_le (bound := U64_MAX) (acc := 0) (ds := l.int)
  have e : l.text.length = (if l.minus then 1 else 0) + l.int.length + (fracText l.frac).length + (expText l.exp).length := by
    rw [numLit_text]; cases l.minus <;> simp <;> omega
  unfold numEvent at h
  simp only at h
  split at h
  · split at h
    · split at h <;> cases h
    · cases h
  · cases hi : i32 ((accum U64_MAX 0 l.int).2 : Int) with
    | ok z =>
      have hz : z = ((accum U64_MAX 0 l.int).2 : Int) ∧ z ≤ I32_MAX := by
        unfold i32 at hi; split at hi <;> simp at hi; omega
      rw [hi] at h
      simp only [Res.bind_ok'] at h
      cases hf : fracValue (!l.minus) (accum U64_MAX 0 l.int).1 z l.exp l.frac with
      | ok _ => rw [hf] at h; cases h
      | err => rw [hf] at h; cases h
      | panic =>
        have := fracValue_panic (by omega) hf
        omega
    | err => exact absurd hi i32_ne_err
    | panic =>
      rw [i32_eq_panic] at hi
      simp only [I32_MIN, I32_MAX] at hi
      omega

/-! ## Number tokens -/

/-- The three-way choice after the integer digits of a literal. -/
def numTail (d : De) (nn : Bool) (sig : Nat) (st : Int) : Res (F64 × De) :=
  if d.peekOrNul = b('.') then d.parseDecimal nn sig st
  else if d.peekOrNul = b('e') ∨ d.peekOrNul = b('E') then d.parseExponent nn sig st
  else (f64FromParts nn sig st).bind fun f => .ok (f, d)

theorem parseLongInteger_reach {nn : Bool} {sig : Nat} {ds r : Bytes} {st : Int} {d : De} (h : d.rest = ds ++ r)
    (hd : AllDigits ds) (hr : NoDigit r) (hs : st ≤ I32_MAX) (hs' : I32_MIN ≤ st) :
    ∃ d', Eats d d' ds ∧ d'.rest = r ∧
      parseLongInteger d nn sig st = (i32 (st + ds.length)).bind fun e => numTail d' nn sig e := by
  induction ds generalizing d st with
  | nil =>
    refine ⟨d, .refl _, h, ?_⟩
    rw [parseLongInteger, dif_neg (by rw [peek_nodigit (by rw [h]; exact hr)]; simp)]
    simp only [List.length_nil, Int.natCast_zero, Int.add_zero, i32_ok ⟨hs', hs⟩, Res.bind_ok']
    rfl
  | cons c cs ih =>
    obtain ⟨h1, h2, h3, h4⟩ := rest_cons h
    have hcd : isDigit c = true := hd c (by simp)
    have hc : isDigit d.peekOrNul = true := by rw [peek_digit h]; exact hcd
    rw [parseLongInteger, dif_pos hc]
    by_cases hb : st + 1 ≤ I32_MAX
    · rw [i32_ok ⟨by omega, hb⟩]
      obtain ⟨d', t, e, e2⟩ := ih h3 (fun x hx => hd x (by simp [hx])) hb (by omega)
      refine ⟨d', h4.cons t, e, ?_⟩
      simp only
      rw [e2]
      have : st + 1 + (cs.length : Int) = st + ((c :: cs).length : Int) := by simp; omega
      rw [this]
    · rw [i32_panic (by omega)]
      obtain ⟨d', t, e, -⟩ := ih h3 (fun x hx => hd x (by simp [hx])) hs (by omega)
      refine ⟨d', h4.cons t, e, ?_⟩
      rw [i32_panic (by simp; omega)]
      rfl

theorem integerLoop_reach {nn : Bool} {sig : Nat} {ds r : Bytes} {d : De} (h : d.rest = ds ++ r) (hd : AllDigits ds)
    (hr : NoDigit r) (hsig : sig ≤ U64_MAX) :
    ∃ d', Eats d d' ds ∧ d'.rest = r ∧ integerLoop d nn sig =
      if (accum U64_MAX sig ds).2 = 0 then parseNumber d' nn (accum U64_MAX sig ds).1
      else mapFloat ((i32 (accum U64_MAX sig ds).2).bind fun e => numTail d' nn (accum U64_MAX sig ds).1 e) := by
  induction ds generalizing d sig with
  | nil =>
    refine ⟨d, .refl _, h, ?_⟩
    rw [integerLoop, dif_neg (by rw [peek_nodigit (by rw [h]; exact hr)]; simp)]
    simp [accum]
  | cons c cs ih =>
    obtain ⟨h1, h2, h3, h4⟩ := rest_cons h
    have hcd : isDigit c = true := hd c (by simp)
    have hc : isDigit d.peekOrNul = true := by rw [peek_digit h]; exact hcd
    have hv := digitVal_le hcd
    have hdv : digitVal c = c.toNat - 48 := rfl
    rw [integerLoop, dif_pos hc]
    simp only [peek_digit h]
    by_cases ho : overflows sig (digitVal c) U64_MAX = true
    · rw [if_pos ho]
      rw [overflows_iff hv] at ho
      have ha : accum U64_MAX sig (c :: cs) = (sig, cs.length + 1) := by
        rw [accum, if_neg (by omega)]
      simp only [ha]
      obtain ⟨d', t, e, e2⟩ := parseLongInteger_reach (nn := nn) (sig := sig) (st := 1) h3 (fun x hx => hd x (by simp [hx]))
        hr (by decide) (by decide)
      refine ⟨d', h4.cons t, e, ?_⟩
      rw [e2, if_neg (by simp)]
      have : (1 : Int) + cs.length = ((cs.length + 1 : Nat) : Int) := by omega
      rw [this]
    · rw [if_neg ho]
      rw [overflows_iff hv] at ho
      have ha : accum U64_MAX sig (c :: cs) = accum U64_MAX (sig * 10 + digitVal c) cs := by
        rw [accum, if_pos (by omega)]; rfl
      rw [ha, u64_ok (by omega)]
      obtain ⟨d', t, e, e2⟩ := ih (sig := sig * 10 + digitVal c) h3 (fun x hx => hd x (by simp [hx])) (by omega)
      exact ⟨d', h4.cons t, e, e2⟩

/-- A failure that is a panic only if at least 2 GiB of input are left. -/
def Bad {α : Type} (d : De) (x : Res α) : Prop := x = .err ∨ (x = .panic ∧ 2147483648 ≤ d.rem)

theorem Bad.not_ok {α : Type} {d : De} {a : α} (h : Bad d (.ok a)) : False := by
  rcases h with h | ⟨h, -⟩ <;> cases h

theorem Bad.mono {α : Type} {d d' : De} {c : Bytes} {x : Res α} (h : Bad d' x) (t : Eats d d' c) : Bad d x := by
  rcases h with h | ⟨h, h'⟩
  · exact .inl h
  · have := t.rem; exact .inr ⟨h, by omega⟩

/-- What follows the integer part: a well-formed fraction and exponent, or a failure. -/
def TailOk (d : De) : Prop := ∃ (fo : Option Bytes) (xo : Option ExpPart) (r : Bytes),
  d.rest = fracText fo ++ (expText xo ++ r) ∧ (∀ fs, fo = some fs → Digits fs) ∧ (∀ x, xo = some x → Digits x.digits) ∧
  Follow fo xo r

theorem exp_cases {d : De} (nn : Bool) (sig : Nat) (st : Int) (hnd : NoDigit d.rest) :
    (∃ (xo : Option ExpPart) (r : Bytes), d.rest = expText xo ++ r ∧ (∀ x, xo = some x → Digits x.digits) ∧
      Follow (some []) xo r) ∨
    (d.peekOrNul = 0x65 ∨ d.peekOrNul = 0x45) ∧ parseExponent d nn sig st = .err := by
  by_cases he : ∃ c r, d.rest = c :: r ∧ (c = 0x65 ∨ c = 0x45)
  · obtain ⟨c, r, h, hc⟩ := he
    rcases parseExponent_cases (nn := nn) (sig := sig) (st := st) h hc with h' | ⟨x, r', h1, h2, h3⟩
    · exact .inr ⟨by rw [peek_digit h]; exact hc, h'⟩
    · exact .inl ⟨some x, r', h1, by simp; exact h2, ⟨h3, by simp, by simp⟩⟩
  · left
    refine ⟨none, d.rest, rfl, by simp, ⟨hnd, ?_, by simp⟩⟩
    intro _ c hc
    constructor <;>
    · rintro rfl
      apply he
      cases hr : d.rest with
      | nil => rw [hr] at hc; simp at hc
      | cons c r => rw [hr] at hc; simp at hc; exact ⟨c, r, rfl, by simp [hc]⟩

theorem parseDecimal_cases {d : De} {r : Bytes} (nn : Bool) (sig : Nat) {st : Int} (h : d.rest = 0x2E :: r)
    (hst : 0 ≤ st ∧ st ≤ I32_MAX) :
    TailOk d ∨ Bad d (parseDecimal d nn sig st) := by
  obtain ⟨h1, h2, h3, h4⟩ := rest_cons h
  obtain ⟨fs, r', e, a1, a2⟩ := span_digits r
  rw [e] at h3
  obtain ⟨d1, t1, e1, e2⟩ := decimalLoop_spec (one := false) (sig := sig) (e := st) h3 a1 a2 hst.2 (by simp only [I32_MIN]; omega)
  have hr := (h4.cons t1).rem
  unfold parseDecimal
  rw [e2]
  cases hi : i32 (st - ((fs.length - (accum U64_MAX sig fs).2 : Nat) : Int)) with
  | err => exact absurd hi i32_ne_err
  | panic =>
    right
    right
    rw [i32_eq_panic] at hi
    simp only [I32_MIN, I32_MAX] at *
    simp at hr
    exact ⟨rfl, by omega⟩
  | ok e' =>
    simp only [Res.bind_ok']
    cases fs with
    | nil => right; left; rfl
    | cons c cs =>
      rw [if_neg (by simp)]
      rcases exp_cases (d := d1) nn (accum U64_MAX sig (c :: cs)).1 e' (by rw [e1]; exact a2) with ⟨xo, r2, f1, f2, f3⟩ | ⟨f1, f2⟩
      · left
        refine ⟨some (c :: cs), xo, r2, ?_, by simp; exact digits_iff.2 ⟨by simp, a1⟩, f2, ⟨f3.nodigit, f3.noexp, by simp⟩⟩
        rw [h, e, ← e1, f1]; rfl
      · right; left
        rw [if_pos f1, f2]

/-- What follows the integer part is well-formed, or reading it fails. -/
theorem numTail_cases {d : De} (nn : Bool) (sig : Nat) {st : Int} (hnd : NoDigit d.rest)
    (hst : 0 ≤ st ∧ st ≤ I32_MAX) :
    TailOk d ∨ ((d.peekOrNul = 0x2E ∨ d.peekOrNul = 0x65 ∨ d.peekOrNul = 0x45) ∧ Bad d (numTail d nn sig st)) := by
  unfold numTail
  by_cases hp : d.peekOrNul = 0x2E
  · have : ∃ r, d.rest = 0x2E :: r := by
      rcases d.head_cases with h | ⟨c, r, h⟩
      · rw [peekOrNul_eq, h] at hp; simp at hp
      · rw [peek_digit h] at hp; subst hp; exact ⟨r, h⟩
    obtain ⟨r, h⟩ := this
    rw [if_pos hp]
    rcases parseDecimal_cases nn sig h hst with h' | h'
    · exact .inl h'
    · exact .inr ⟨.inl hp, h'⟩
  · rw [if_neg hp]
    rcases exp_cases nn sig st hnd with ⟨xo, r, f1, f2, f3⟩ | ⟨f1, f2⟩
    · left
      refine ⟨none, xo, r, f1, by simp, f2, ⟨f3.nodigit, f3.noexp, ?_⟩⟩
      rintro rfl - c hc rfl
      rw [peekOrNul_eq, f1] at hp
      simp [expText, hc] at hp
    · right
      exact ⟨.inr f1, by rw [if_pos f1, f2]; exact .inl rfl⟩

theorem Bad.mapFloat {d : De} {x : Res (F64 × De)} (h : Bad d x) : Bad d (mapFloat x) := by
  rcases h with rfl | ⟨rfl, h⟩
  · exact .inl rfl
  · exact .inr ⟨rfl, h⟩

theorem parseNumber_bad {d : De} {nn : Bool} {sig : Nat} (hp : d.peekOrNul = 0x2E ∨ d.peekOrNul = 0x65 ∨ d.peekOrNul = 0x45)
    (h : Bad d (numTail d nn sig 0)) : Bad d (parseNumber d nn sig) := by
  unfold parseNumber
  unfold numTail at h
  split
  · rename_i h'
    rw [if_pos h'] at h
    exact h.mapFloat
  · rename_i h'
    rw [if_neg h'] at h
    have : d.peekOrNul = 0x65 ∨ d.peekOrNul = 0x45 := by
      rcases hp with hp | hp
      · exact absurd hp h'
      · exact hp
    rw [if_pos this] at h ⊢
    exact h.mapFloat

/-- After a first digit: a well-formed unsigned literal, or a failure. -/
theorem parseInteger_cases (d : De) (nn : Bool) (c : UInt8) :
    (∃ (cs : Bytes) (fo : Option Bytes) (xo : Option ExpPart) (r : Bytes),
      d.rest = cs ++ (fracText fo ++ (expText xo ++ r)) ∧ AllDigits (c :: cs) ∧ (c = 0x30 → cs = []) ∧
      (∀ fs, fo = some fs → Digits fs) ∧ (∀ x, xo = some x → Digits x.digits) ∧ Follow fo xo r) ∨
    Bad d (parseInteger d nn c) := by
  unfold parseInteger
  by_cases h0 : c = 0x30
  · rw [if_pos h0]
    by_cases hp : isDigit d.peekOrNul = true
    · rw [if_pos hp]; exact .inr (.inl rfl)
    · rw [if_neg hp]
      have hnd : NoDigit d.rest := by
        intro c hc
        rw [peekOrNul_eq, hc] at hp
        simpa using hp
      rcases numTail_cases nn 0 hnd (st := 0) (by decide) with ⟨fo, xo, r, h1, h2, h3, h4⟩ | ⟨h1, h2⟩
      · left
        exact ⟨[], fo, xo, r, h1, by subst h0; intro x hx; simp at hx; subst hx; rfl, fun _ => rfl, h2, h3, h4⟩
      · right; exact parseNumber_bad h1 h2
  · rw [if_neg h0]
    by_cases hc : isDigit c = true
    · rw [if_pos hc]
      have hv := digitVal_le hc
      obtain ⟨cs, r, e, a1, a2⟩ := span_digits d.rest
      obtain ⟨d1, t1, e1, e2⟩ := integerLoop_reach (nn := nn) (sig := digitVal c) e a1 a2 (by simp only [U64_MAX]; omega)
      have hl := accum_left_le (bound := U64_MAX) (acc := digitVal c) (ds := cs)
      rw [e2]
      have all : AllDigits (c :: cs) := by
        intro x hx
        simp at hx
        rcases hx with rfl | hx
        · exact hc
        · exact a1 x hx
      have fin : TailOk d1 → ∃ (cs : Bytes) (fo : Option Bytes) (xo : Option ExpPart) (r : Bytes),
          d.rest = cs ++ (fracText fo ++ (expText xo ++ r)) ∧ AllDigits (c :: cs) ∧ (c = 0x30 → cs = []) ∧
          (∀ fs, fo = some fs → Digits fs) ∧ (∀ x, xo = some x → Digits x.digits) ∧ Follow fo xo r := by
        rintro ⟨fo, xo, r', h1, h2, h3, h4⟩
        exact ⟨cs, fo, xo, r', by rw [e, ← e1, h1], all, fun h => absurd h h0, h2, h3, h4⟩
      by_cases hz : (accum U64_MAX (digitVal c) cs).2 = 0
      · rw [if_pos hz]
        rcases numTail_cases (d := d1) nn (accum U64_MAX (digitVal c) cs).1 (by rw [e1]; exact a2) (st := 0) (by decide) with h | ⟨h1, h2⟩
        · exact .inl (fin h)
        · exact .inr ((parseNumber_bad h1 h2).mono t1)
      · rw [if_neg hz]
        cases hi : i32 ((accum U64_MAX (digitVal c) cs).2 : Int) with
        | err => exact absurd hi i32_ne_err
        | panic =>
          right; right
          rw [i32_eq_panic] at hi
          have := t1.rem
          simp only [I32_MIN, I32_MAX] at *
          exact ⟨rfl, by omega⟩
        | ok z =>
          have hz : 0 ≤ z ∧ z ≤ I32_MAX := by
            unfold i32 at hi; split at hi <;> simp at hi; omega
          rcases numTail_cases (d := d1) nn (accum U64_MAX (digitVal c) cs).1 (by rw [e1]; exact a2) hz with h | ⟨h1, h2⟩
          · exact .inl (fin h)
          · exact .inr (h2.mapFloat.mono t1)
    · rw [if_neg hc]; exact .inr (.inl rfl)

/-! ## Identifiers -/

theorem parseIdent_complete {d : De} {id r : Bytes} (h : d.rest = id ++ r) :
    ∃ d', d.parseIdent id = .ok d' ∧ Eats d d' id ∧ d'.rest = r := by
  induction id generalizing d with
  | nil => exact ⟨d, rfl, .refl _, h⟩
  | cons c cs ih =>
    obtain ⟨h1, h2, h3, h4⟩ := rest_cons h
    obtain ⟨d', e, t, e'⟩ := ih h3
    refine ⟨d', ?_, h4.cons t, e'⟩
    simp [parseIdent, next_cons h, e]

theorem parseIdent_cases (d : De) (id : Bytes) : d.parseIdent id = .err ∨ ∃ r, d.rest = id ++ r := by
  induction id generalizing d with
  | nil => exact .inr ⟨d.rest, rfl⟩
  | cons c cs ih =>
    rcases d.head_cases with h | ⟨x, r, h⟩
    · left; simp [parseIdent, next_nil h]
    · simp only [parseIdent, next_cons h]
      by_cases hx : x = c
      · subst hx
        rcases ih d.bump with h' | ⟨r', h'⟩
        · left; simp [h']
        · right; refine ⟨r', ?_⟩; rw [h, ← (rest_cons h).2.2.1, h']; rfl
      · left; simp [hx]

end De
end Miniserde
