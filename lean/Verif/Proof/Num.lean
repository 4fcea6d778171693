import Verif.Proof.Zip
import Verif.Spec.Number

/-!
# Number literals: the tokenizer delivers `numEvent`
-/

namespace Miniserde

theorem isDigit_iff (c : UInt8) : isDigit c = true ↔ IsDigit c := by
  simp [isDigit, IsDigit]

theorem overflows_iff {a b c : Nat} (hb : b ≤ 9) : overflows a b c = true ↔ c < a * 10 + b := by
  unfold overflows
  simp only [Bool.and_eq_true, decide_eq_true_eq, Bool.or_eq_true]
  omega

theorem digitVal_le {c : UInt8} (h : isDigit c = true) : digitVal c ≤ 9 := by
  simp [isDigit, UInt8.le_iff_toNat_le] at h
  unfold digitVal; omega

/-- The unread input starts with no digit. -/
def NoDigit (r : Bytes) : Prop := ∀ c, r.head? = some c → isDigit c = false

/-- All bytes are digits. -/
def AllDigits (ds : Bytes) : Prop := ∀ c ∈ ds, isDigit c = true

theorem digits_iff {ds : Bytes} : Digits ds ↔ ds ≠ [] ∧ AllDigits ds := by
  simp [Digits, AllDigits, isDigit_iff]

theorem span_digits (bs : Bytes) : ∃ ds r, bs = ds ++ r ∧ AllDigits ds ∧ NoDigit r := by
  induction bs with
  | nil => exact ⟨[], [], rfl, by simp [AllDigits], by simp [NoDigit]⟩
  | cons c bs ih =>
    by_cases h : isDigit c = true
    · obtain ⟨ds, r, e, h1, h2⟩ := ih
      refine ⟨c :: ds, r, by rw [e]; rfl, ?_, h2⟩
      intro x hx
      simp at hx
      rcases hx with rfl | hx
      · exact h
      · exact h1 x hx
    · exact ⟨[], c :: bs, rfl, by simp [AllDigits], by simpa [NoDigit] using h⟩

theorem accum_le {bound acc : Nat} {ds : Bytes} (h : acc ≤ bound) : (accum bound acc ds).1 ≤ bound := by
  induction ds generalizing acc with
  | nil => exact h
  | cons c cs ih =>
    unfold accum
    split
    · exact ih (by assumption)
    · exact h

theorem accum_left_le {bound acc : Nat} {ds : Bytes} : (accum bound acc ds).2 ≤ ds.length := by
  induction ds generalizing acc with
  | nil => simp [accum]
  | cons c cs ih =>
    unfold accum
    split
    · have := ih (acc := acc * 10 + (c.toNat - 48)); simp; omega
    · simp

theorem accum_append {bound acc : Nat} {as bs : Bytes} (h : (accum bound acc as).2 = 0) :
    accum bound acc (as ++ bs) = accum bound (accum bound acc as).1 bs := by
  induction as generalizing acc with
  | nil => rfl
  | cons c cs ih =>
    simp only [accum, List.cons_append] at h ⊢
    split
    · rename_i h'
      simp only [h', if_true] at h
      exact ih h
    · rename_i h'
      simp [h'] at h

theorem i32_ok {z : Int} (h : I32_MIN ≤ z ∧ z ≤ I32_MAX) : i32 z = .ok z := by unfold i32; rw [if_pos h]
theorem i32_panic {z : Int} (h : ¬ (I32_MIN ≤ z ∧ z ≤ I32_MAX)) : i32 z = .panic := by unfold i32; rw [if_neg h]
theorem u64_ok {n : Nat} (h : n ≤ U64_MAX) : u64 n = .ok n := by unfold u64; rw [if_pos h]

namespace De

theorem peek_digit {d : De} {c : UInt8} {r : Bytes} (h : d.rest = c :: r) : d.peekOrNul = c := by
  rw [peekOrNul_eq, h]; rfl

theorem peek_nodigit {d : De} (h : NoDigit d.rest) : isDigit d.peekOrNul = false := by
  rw [peekOrNul_eq]
  cases hr : d.rest with
  | nil => rfl
  | cons c r => exact h c (by rw [hr]; rfl)

theorem skipDigits_spec {ds r : Bytes} {d : De} (h : d.rest = ds ++ r) (hd : AllDigits ds) (hr : NoDigit r) :
    Eats d d.skipDigits ds ∧ d.skipDigits.rest = r := by
  induction ds generalizing d with
  | nil =>
    rw [skipDigits, dif_neg]
    · exact ⟨.refl _, h⟩
    · rw [peek_nodigit (by rw [h]; exact hr)]; simp
  | cons c cs ih =>
    obtain ⟨h1, h2, h3, h4⟩ := rest_cons h
    have hc : isDigit d.peekOrNul = true := by rw [peek_digit h]; exact hd c (by simp)
    rw [skipDigits, dif_pos hc]
    obtain ⟨t, e⟩ := ih h3 (fun x hx => hd x (by simp [hx]))
    exact ⟨h4.cons t, e⟩

/-- The exponent digit loop. -/
theorem exponentLoop_spec {nn pos : Bool} {sig : Nat} {st : Int} {ds r : Bytes} {d : De} {exp : Nat}
    (h : d.rest = ds ++ r) (hd : AllDigits ds) (hr : NoDigit r) :
    ∃ d', Eats d d' ds ∧ d'.rest = r ∧ exponentLoop nn sig st pos d exp =
      ((if (accum 2147483647 exp ds).2 ≠ 0 then
        (if sig ≠ 0 ∧ pos = true then .err else .ok (.fin (!nn) 0 binary64.emin))
        else f64FromParts nn sig (satI32 (if pos then st + (accum 2147483647 exp ds).1
          else st - (accum 2147483647 exp ds).1))).bind fun f => .ok (f, d')) := by
  induction ds generalizing d exp with
  | nil =>
    refine ⟨d, .refl _, h, ?_⟩
    rw [exponentLoop, dif_neg (by rw [peek_nodigit (by rw [h]; exact hr)]; simp)]
    cases pos <;> simp [accum]
  | cons c cs ih =>
    obtain ⟨h1, h2, h3, h4⟩ := rest_cons h
    have hcd : isDigit c = true := hd c (by simp)
    have hc : isDigit d.peekOrNul = true := by rw [peek_digit h]; exact hcd
    have hv := digitVal_le hcd
    rw [exponentLoop, dif_pos hc]
    simp only [peek_digit h]
    have hdv : digitVal c = c.toNat - 48 := rfl
    by_cases ho : overflows exp (digitVal c) 2147483647 = true
    · rw [if_pos ho]
      rw [overflows_iff hv] at ho
      have ha : accum 2147483647 exp (c :: cs) = (exp, cs.length + 1) := by
        rw [accum, if_neg (by omega)]
      simp only [ha]
      obtain ⟨t, e⟩ := skipDigits_spec h3 (fun x hx => hd x (by simp [hx])) hr
      refine ⟨d.bump.skipDigits, h4.cons t, e, ?_⟩
      unfold parseExponentOverflow
      simp
      split <;> rfl
    · rw [if_neg ho]
      rw [overflows_iff hv] at ho
      rw [if_pos (by simp only [I32_MAX]; omega)]
      have ha : accum 2147483647 exp (c :: cs) = accum 2147483647 (exp * 10 + digitVal c) cs := by
        rw [accum, if_pos (by omega)]; rfl
      rw [ha]
      obtain ⟨d', t, e, e2⟩ := ih (exp := exp * 10 + digitVal c) h3 (fun x hx => hd x (by simp [hx]))
      exact ⟨d', h4.cons t, e, e2⟩

theorem nextOrNul_cons {d : De} {c : UInt8} {r : Bytes} (h : d.rest = c :: r) : d.nextOrNul = (c, d.bump) := by
  simp [nextOrNul, next_cons h]

theorem nextOrNul_nil {d : De} (h : d.rest = []) : d.nextOrNul = (0, d) := by
  simp [nextOrNul, next_nil h]

theorem digit_ne {c : UInt8} (h : isDigit c = true) : c ≠ 0x2B ∧ c ≠ 0x2D ∧ c ≠ 0x65 ∧ c ≠ 0x45 ∧ c ≠ 0x2E := by
  refine ⟨?_, ?_, ?_, ?_, ?_⟩ <;> rintro rfl <;> revert h <;> decide

/-- Digits of an exponent after its sign. -/
theorem exponentDigits_spec {nn pos : Bool} {sig : Nat} {st : Int} {ds r : Bytes} {d : De}
    (h : d.rest = ds ++ r) (hd : Digits ds) (hr : NoDigit r) :
    ∃ d', Eats d d' ds ∧ d'.rest = r ∧
      (if isDigit d.nextOrNul.1 then exponentLoop nn sig st pos d.nextOrNul.2 (digitVal d.nextOrNul.1) else .err) =
      ((if (accum 2147483647 0 ds).2 ≠ 0 then
        (if sig ≠ 0 ∧ pos = true then .err else .ok (.fin (!nn) 0 binary64.emin))
        else f64FromParts nn sig (satI32 (if pos then st + (accum 2147483647 0 ds).1
          else st - (accum 2147483647 0 ds).1))).bind fun f => .ok (f, d')) := by
  rw [digits_iff] at hd
  obtain ⟨hne, hd⟩ := hd
  cases ds with
  | nil => exact absurd rfl hne
  | cons c cs =>
    obtain ⟨h1, h2, h3, h4⟩ := rest_cons h
    have hcd : isDigit c = true := hd c (by simp)
    have hv := digitVal_le hcd
    have hdv : digitVal c = c.toNat - 48 := rfl
    rw [nextOrNul_cons h]
    simp only [hcd, if_true]
    have ha : accum 2147483647 0 (c :: cs) = accum 2147483647 (digitVal c) cs := by
      rw [accum, if_pos (by omega)]; simp [hdv]
    rw [ha]
    obtain ⟨d', t, e, e2⟩ := exponentLoop_spec (nn := nn) (pos := pos) (sig := sig) (st := st) (exp := digitVal c) h3
      (fun x hx => hd x (by simp [hx])) hr
    exact ⟨d', h4.cons t, e, e2⟩

/-- `e`/`E` followed by a well-formed exponent. -/
theorem parseExponent_spec {nn : Bool} {sig : Nat} {st : Int} {x : ExpPart} {r : Bytes} {d : De}
    (h : d.rest = x.text ++ r) (hd : Digits x.digits) (hr : NoDigit r) :
    ∃ d', Eats d d' x.text ∧ d'.rest = r ∧
      parseExponent d nn sig st = (expValue nn sig st (some x)).bind fun f => .ok (f, d') := by
  unfold ExpPart.text at h ⊢
  obtain ⟨h1, h2, h3, h4⟩ := rest_cons h
  unfold parseExponent expValue
  obtain ⟨up, sg, ds⟩ := x
  simp only at hd h h3 h4 ⊢
  match sg, h3 with
  | none, h3 =>
    simp only [List.nil_append] at h3 ⊢
    have hne : ∃ c cs, ds = c :: cs := by
      rw [digits_iff] at hd
      cases ds with
      | nil => exact absurd rfl hd.1
      | cons c cs => exact ⟨c, cs, rfl⟩
    obtain ⟨c, cs, rfl⟩ := hne
    have hcd := (digits_iff.1 hd).2 c (by simp)
    have hp : d.bump.peekOrNul = c := peek_digit h3
    obtain ⟨n1, n2, -⟩ := digit_ne hcd
    rw [hp, if_neg n1, if_neg n2]
    obtain ⟨d', t, e, e2⟩ := exponentDigits_spec (nn := nn) (pos := true) (sig := sig) (st := st) h3 hd hr
    exact ⟨d', h4.cons t, e, e2⟩
  | some true, h3 =>
    simp only [List.cons_append, List.nil_append] at h3 ⊢
    have hp : d.bump.peekOrNul = 0x2D := peek_digit h3
    obtain ⟨-, -, g3, g4⟩ := rest_cons h3
    rw [hp, if_neg (show ¬ ((0x2D : UInt8) = 0x2B) by decide), if_pos rfl]
    obtain ⟨d', t, e, e2⟩ := exponentDigits_spec (nn := nn) (pos := false) (sig := sig) (st := st) g3 hd hr
    exact ⟨d', h4.cons (g4.cons t), e, e2⟩
  | some false, h3 =>
    simp only [List.cons_append, List.nil_append] at h3 ⊢
    have hp : d.bump.peekOrNul = 0x2B := peek_digit h3
    obtain ⟨-, -, g3, g4⟩ := rest_cons h3
    rw [hp, if_pos rfl]
    obtain ⟨d', t, e, e2⟩ := exponentDigits_spec (nn := nn) (pos := true) (sig := sig) (st := st) g3 hd hr
    exact ⟨d', h4.cons (g4.cons t), e, e2⟩

/-- Either the input after `e`/`E` is a well-formed exponent or `parse_exponent` fails. -/
theorem parseExponent_cases {nn : Bool} {sig : Nat} {st : Int} {d : De} {c : UInt8} {r : Bytes}
    (h : d.rest = c :: r) (hc : c = 0x65 ∨ c = 0x45) :
    parseExponent d nn sig st = .err ∨ ∃ (x : ExpPart) (r' : Bytes), d.rest = x.text ++ r' ∧ Digits x.digits ∧ NoDigit r' := by
  obtain ⟨h1, h2, h3, h4⟩ := rest_cons h
  have fin : ∀ (d2 : De) (sg : Option Bool), d.rest = (if decide (c = 0x45) then 0x45 else 0x65) ::
      ((match sg with | none => ([] : Bytes) | some true => [0x2D] | some false => [0x2B]) ++ d2.rest) →
      isDigit d2.nextOrNul.1 = false ∨ ∃ (x : ExpPart) (r' : Bytes), d.rest = x.text ++ r' ∧ Digits x.digits ∧ NoDigit r' := by
    intro d2 sg hd2
    obtain ⟨ds, r', e, a1, a2⟩ := span_digits d2.rest
    cases ds with
    | nil =>
      left
      rcases d2.head_cases with h' | ⟨c', r'', h'⟩
      · rw [nextOrNul_nil h']; rfl
      · rw [nextOrNul_cons h']
        simp at e
        exact a2 c' (by rw [← e, h']; rfl)
    | cons c' cs =>
      right
      refine ⟨⟨decide (c = 0x45), sg, c' :: cs⟩, r', ?_, digits_iff.2 ⟨by simp, a1⟩, a2⟩
      rw [hd2, e]
      simp [ExpPart.text]
      rcases sg with _ | _ | _ <;> rfl
  have hcc : c = if decide (c = 0x45) then 0x45 else 0x65 := by
    rcases hc with rfl | rfl <;> rfl
  unfold parseExponent
  simp only
  split
  · rename_i hp
    have : d.bump.rest = 0x2B :: d.bump.bump.rest := by
      rcases d.bump.head_cases with h' | ⟨c', r'', h'⟩
      · rw [peekOrNul_eq, h'] at hp; simp at hp
      · rw [peek_digit h'] at hp; subst hp
        rw [(rest_cons h').2.2.1, h']
    rcases fin d.bump.bump (some false) (by rw [h, ← hcc, ← h3, this]; rfl) with f | f
    · left; simp [f]
    · exact .inr f
  · split
    · rename_i hp
      have : d.bump.rest = 0x2D :: d.bump.bump.rest := by
        rcases d.bump.head_cases with h' | ⟨c', r'', h'⟩
        · rw [peekOrNul_eq, h'] at hp; simp at hp
        · rw [peek_digit h'] at hp; subst hp
          rw [(rest_cons h').2.2.1, h']
      rcases fin d.bump.bump (some true) (by rw [h, ← hcc, ← h3, this]; rfl) with f | f
      · left; simp [f]
      · exact .inr f
    · rcases fin d.bump none (by rw [h, ← hcc, ← h3]; rfl) with f | f
      · left; simp [f]
      · exact .inr f

/-- The digit loop of `parse_decimal`. -/
theorem decimalLoop_spec {ds r : Bytes} {d : De} {one : Bool} {sig : Nat} {e : Int}
    (h : d.rest = ds ++ r) (hd : AllDigits ds) (hr : NoDigit r) (he : e ≤ I32_MAX) (he' : I32_MIN ≤ e) :
    ∃ d', Eats d d' ds ∧ d'.rest = r ∧ decimalLoop d one sig e =
      (i32 (e - ((ds.length - (accum U64_MAX sig ds).2 : Nat) : Int))).bind fun e' =>
        .ok ((one || !ds.isEmpty, (accum U64_MAX sig ds).1, e'), d') := by
  induction ds generalizing d sig e one with
  | nil =>
    refine ⟨d, .refl _, h, ?_⟩
    rw [decimalLoop, dif_neg (by rw [peek_nodigit (by rw [h]; exact hr)]; simp)]
    simp [accum, i32_ok ⟨he', he⟩]
  | cons c cs ih =>
    obtain ⟨h1, h2, h3, h4⟩ := rest_cons h
    have hcd : isDigit c = true := hd c (by simp)
    have hc : isDigit d.peekOrNul = true := by rw [peek_digit h]; exact hcd
    have hv := digitVal_le hcd
    have hdv : digitVal c = c.toNat - 48 := rfl
    rw [decimalLoop, dif_pos hc]
    simp only [peek_digit h]
    by_cases ho : overflows sig (digitVal c) U64_MAX = true
    · rw [if_pos ho]
      rw [overflows_iff hv] at ho
      have ha : accum U64_MAX sig (c :: cs) = (sig, cs.length + 1) := by
        rw [accum, if_neg (by omega)]
      simp only [ha]
      obtain ⟨t, e2⟩ := skipDigits_spec h3 (fun x hx => hd x (by simp [hx])) hr
      refine ⟨d.bump.skipDigits, h4.cons t, e2, ?_⟩
      simp [i32_ok ⟨he', he⟩]
    · rw [if_neg ho]
      rw [overflows_iff hv] at ho
      have ha : accum U64_MAX sig (c :: cs) = accum U64_MAX (sig * 10 + digitVal c) cs := by
        rw [accum, if_pos (by omega)]; rfl
      rw [ha, u64_ok (by omega)]
      have hlen := accum_left_le (bound := U64_MAX) (acc := sig * 10 + digitVal c) (ds := cs)
      by_cases hb : I32_MIN ≤ e - 1
      · rw [i32_ok ⟨hb, by omega⟩]
        simp only
        obtain ⟨d', t, e2, e3⟩ := ih (one := true) (sig := sig * 10 + digitVal c) (e := e - 1) h3
          (fun x hx => hd x (by simp [hx])) (by omega) hb
        refine ⟨d', h4.cons t, e2, ?_⟩
        rw [e3]
        have : e - 1 - ((cs.length - (accum U64_MAX (sig * 10 + digitVal c) cs).2 : Nat) : Int) =
          e - (((c :: cs).length - (accum U64_MAX (sig * 10 + digitVal c) cs).2 : Nat) : Int) := by
          simp; omega
        rw [this]; simp
      · rw [i32_panic (by omega)]
        obtain ⟨d', t, e2, -⟩ := ih (one := true) (sig := sig * 10 + digitVal c) (e := e) h3
          (fun x hx => hd x (by simp [hx])) he he'
        refine ⟨d', h4.cons t, e2, ?_⟩
        rw [i32_panic (by simp; omega)]
        rfl

/-- The text of an optional exponent part. -/
def expText : Option ExpPart → Bytes
  | none => []
  | some e => e.text

/-- The text of an optional fraction. -/
def fracText : Option Bytes → Bytes
  | none => []
  | some ds => 0x2E :: ds

theorem numLit_text (l : NumLit) : l.text = (if l.minus then [0x2D] else []) ++ l.int ++ fracText l.frac ++ expText l.exp := by
  unfold NumLit.text
  cases l.frac <;> cases l.exp <;> rfl

/-- `r` cannot continue the literal. -/
structure Follow (fo : Option Bytes) (xo : Option ExpPart) (r : Bytes) : Prop where
  nodigit : NoDigit r
  noexp : xo = none → ∀ c, r.head? = some c → c ≠ 0x65 ∧ c ≠ 0x45
  nodot : xo = none → fo = none → ∀ c, r.head? = some c → c ≠ 0x2E

theorem expText_head {xo : Option ExpPart} {r : Bytes} (h : NoDigit r) : NoDigit (expText xo ++ r) := by
  cases xo with
  | none => exact h
  | some x =>
    intro c hc
    simp [expText, ExpPart.text] at hc
    subst hc
    cases x.upper <;> rfl

theorem ite_ok {α : Type} {c : Prop} [Decidable c] {a b a' b' : α} (h1 : c → a = a') (h2 : ¬ c → b = b') :
    (if c then a else b) = if c then a' else b' := by split <;> simp_all

/-- The end of a number: an exponent part or nothing. -/
theorem expPart_spec {nn : Bool} {sig : Nat} {st : Int} {xo : Option ExpPart} {r : Bytes} {d : De}
    (h : d.rest = expText xo ++ r) (hx : ∀ x, xo = some x → Digits x.digits) (hr : Follow (some []) xo r) :
    ∃ d', Eats d d' (expText xo) ∧ d'.rest = r ∧
      (if d.peekOrNul = b('e') ∨ d.peekOrNul = b('E') then d.parseExponent nn sig st
        else (f64FromParts nn sig st).bind fun f => .ok (f, d)) =
      (expValue nn sig st xo).bind fun f => .ok (f, d') := by
  cases xo with
  | none =>
    refine ⟨d, .refl _, h, ?_⟩
    rw [if_neg]
    · rfl
    · rw [peekOrNul_eq, h]
      simp only [expText, List.nil_append]
      cases r with
      | nil => simp
      | cons c r => have := hr.noexp rfl c (by simp); simpa using this
  | some x =>
    obtain ⟨d', t, e, e2⟩ := parseExponent_spec (nn := nn) (sig := sig) (st := st) h (hx x rfl) hr.nodigit
    refine ⟨d', t, e, ?_⟩
    rw [if_pos]
    · exact e2
    · have : d.peekOrNul = if x.upper then 0x45 else 0x65 := peek_digit (r := _) (by rw [h, expText, ExpPart.text]; rfl)
      rw [this]; cases x.upper <;> simp

/-- `.` followed by a well-formed fraction and optionally an exponent. -/
theorem parseDecimal_spec {nn : Bool} {sig : Nat} {st : Int} {fs : Bytes} {xo : Option ExpPart} {r : Bytes} {d : De}
    (h : d.rest = 0x2E :: (fs ++ (expText xo ++ r))) (hf : Digits fs) (hx : ∀ x, xo = some x → Digits x.digits)
    (hr : Follow (some fs) xo r) (hs : st ≤ I32_MAX) (hs' : I32_MIN ≤ st) :
    ∃ d', Eats d d' (0x2E :: fs ++ expText xo) ∧ d'.rest = r ∧
      parseDecimal d nn sig st = (fracValue nn sig st xo (some fs)).bind fun f => .ok (f, d') := by
  obtain ⟨h1, h2, h3, h4⟩ := rest_cons h
  obtain ⟨hne, hd⟩ := digits_iff.1 hf
  obtain ⟨d1, t1, e1, e2⟩ := decimalLoop_spec (one := false) (sig := sig) h3 hd (expText_head hr.nodigit) hs hs'
  unfold parseDecimal fracValue
  rw [e2]
  have hemp : fs.isEmpty = false := by cases fs with
    | nil => exact absurd rfl hne
    | cons => rfl
  cases hi : i32 (st - ((fs.length - (accum U64_MAX sig fs).2 : Nat) : Int)) with
  | ok e =>
    obtain ⟨d', t, e3, e4⟩ := expPart_spec (nn := nn) (sig := (accum U64_MAX sig fs).1) (st := e) e1 hx
      ⟨hr.nodigit, hr.noexp, by simp⟩
    refine ⟨d', ?_, e3, ?_⟩
    · have := h4.cons (t1.trans t)
      simpa using this
    · simp only [hi, Res.bind_ok', hemp]
      rw [if_neg (by simp)]
      exact e4
  | err => unfold i32 at hi; split at hi <;> cases hi
  | panic =>
    obtain ⟨d', t, e3, -⟩ := expPart_spec (nn := nn) (sig := (accum U64_MAX sig fs).1) (st := st) e1 hx
      ⟨hr.nodigit, hr.noexp, by simp⟩
    refine ⟨d', ?_, e3, ?_⟩
    · have := h4.cons (t1.trans t)
      simpa using this
    · simp only [hi, Res.bind_panic']

/-- Optional fraction and exponent (shared tail of `parse_long_integer` and `parse_number`). -/
theorem numTail_spec {nn : Bool} {sig : Nat} {st : Int} {fo : Option Bytes} {xo : Option ExpPart} {r : Bytes} {d : De}
    (h : d.rest = fracText fo ++ (expText xo ++ r)) (hf : ∀ fs, fo = some fs → Digits fs)
    (hx : ∀ x, xo = some x → Digits x.digits) (hr : Follow fo xo r) (hs : st ≤ I32_MAX) (hs' : I32_MIN ≤ st) :
    ∃ d', Eats d d' (fracText fo ++ expText xo) ∧ d'.rest = r ∧
      (if d.peekOrNul = b('.') then d.parseDecimal nn sig st
        else if d.peekOrNul = b('e') ∨ d.peekOrNul = b('E') then d.parseExponent nn sig st
        else (f64FromParts nn sig st).bind fun f => .ok (f, d)) =
      (fracValue nn sig st xo fo).bind fun f => .ok (f, d') := by
  cases fo with
  | some fs =>
    obtain ⟨d', t, e, e2⟩ := parseDecimal_spec (nn := nn) (sig := sig) (st := st) h (hf fs rfl) hx hr hs hs'
    refine ⟨d', t, e, ?_⟩
    rw [if_pos]
    · exact e2
    · exact peek_digit h
  | none =>
    obtain ⟨d', t, e, e2⟩ := expPart_spec (nn := nn) (sig := sig) (st := st) (d := d) (xo := xo) (r := r) h hx
      ⟨hr.nodigit, hr.noexp, by simp⟩
    refine ⟨d', t, e, ?_⟩
    rw [if_neg]
    · exact e2
    · rw [peekOrNul_eq, h]
      cases xo with
      | some x =>
        simp only [fracText, expText, ExpPart.text]
        cases x.upper <;> simp
      | none =>
        cases r with
        | nil => simp [fracText, expText]
        | cons c r => have := hr.nodot rfl rfl c (by simp); simpa [fracText, expText] using this

theorem parseLongInteger_spec {nn : Bool} {sig : Nat} {ds : Bytes} {st : Int} {fo : Option Bytes}
    {xo : Option ExpPart} {r : Bytes} {d : De}
    (h : d.rest = ds ++ (fracText fo ++ (expText xo ++ r))) (hd : AllDigits ds) (hf : ∀ fs, fo = some fs → Digits fs)
    (hx : ∀ x, xo = some x → Digits x.digits) (hr : Follow fo xo r) (hs : st ≤ I32_MAX) (hs' : I32_MIN ≤ st) :
    ∃ d', Eats d d' (ds ++ (fracText fo ++ expText xo)) ∧ d'.rest = r ∧
      parseLongInteger d nn sig st = (i32 (st + ds.length)).bind fun e =>
        (fracValue nn sig e xo fo).bind fun f => .ok (f, d') := by
  induction ds generalizing d st with
  | nil =>
    obtain ⟨d', t, e, e2⟩ := numTail_spec (nn := nn) (sig := sig) (st := st) h hf hx hr hs hs'
    refine ⟨d', t, e, ?_⟩
    rw [parseLongInteger, dif_neg]
    · simp only [List.length_nil, Int.natCast_zero, Int.add_zero, i32_ok ⟨hs', hs⟩, Res.bind_ok']
      exact e2
    · rw [peek_nodigit]
      · simp
      · rw [h]
        intro c hc
        cases fo with
        | some fs => simp [fracText] at hc; subst hc; rfl
        | none => exact expText_head hr.nodigit c hc
  | cons c cs ih =>
    obtain ⟨h1, h2, h3, h4⟩ := rest_cons h
    have hcd : isDigit c = true := hd c (by simp)
    have hc : isDigit d.peekOrNul = true := by rw [peek_digit h]; exact hcd
    rw [parseLongInteger, dif_pos hc]
    by_cases hb : st + 1 ≤ I32_MAX
    · rw [i32_ok ⟨by omega, hb⟩]
      obtain ⟨d', t, e, e2⟩ := ih h3 (fun x hx => hd x (by simp [hx])) hb (by omega)
      refine ⟨d', h4.cons t, e, ?_⟩
      simp only
      rw [e2]
      have : st + 1 + (cs.length : Int) = st + ((c :: cs).length : Int) := by simp; omega
      rw [this]
    · rw [i32_panic (by omega)]
      obtain ⟨d', t, e, -⟩ := ih h3 (fun x hx => hd x (by simp [hx])) hs (by omega)
      refine ⟨d', h4.cons t, e, ?_⟩
      rw [i32_panic (by simp; omega)]
      rfl

/-- The event of an integer literal that fits in `u64`. -/
def intEvent (nn : Bool) (n : Nat) : Event :=
  if nn then .nonnegative n
  else if n ≤ 9223372036854775808 then .negative (-(n : Int)) else .float (Flt.ofNat binary64 n).neg

theorem neg_cases {n : Nat} (hn : n ≤ U64_MAX) :
    (n ≤ 9223372036854775808 ∧ wrappingNegI64 (asI64 n) = -(n : Int) ∧ ¬ (wrappingNegI64 (asI64 n) > 0)) ∨
    (¬ n ≤ 9223372036854775808 ∧ wrappingNegI64 (asI64 n) > 0) := by
  unfold wrappingNegI64 asI64
  simp only [I64_MIN, U64_MAX] at *
  split <;> split <;> omega

theorem parseNumber_spec {nn : Bool} {sig : Nat} {fo : Option Bytes} {xo : Option ExpPart} {r : Bytes} {d : De}
    (h : d.rest = fracText fo ++ (expText xo ++ r)) (hf : ∀ fs, fo = some fs → Digits fs)
    (hx : ∀ x, xo = some x → Digits x.digits) (hr : Follow fo xo r) (hsig : sig ≤ U64_MAX) :
    ∃ d', Eats d d' (fracText fo ++ expText xo) ∧ d'.rest = r ∧
      parseNumber d nn sig =
        if fo = none ∧ xo = none then .ok (intEvent nn sig, d')
        else ((fracValue nn sig 0 xo fo).map .float).bind fun ev => .ok (ev, d') := by
  obtain ⟨d', t, e, e2⟩ := numTail_spec (nn := nn) (sig := sig) (st := 0) h hf hx hr (by decide) (by decide)
  have conv : ∀ (a : Res F64), mapFloat (a.bind fun f => .ok (f, d')) = (a.map .float).bind fun ev => .ok (ev, d') := by
    intro a; cases a <;> rfl
  by_cases hn : fo = none ∧ xo = none
  · obtain ⟨rfl, rfl⟩ := hn
    refine ⟨d, .refl _, h, ?_⟩
    have hp : d.peekOrNul ≠ 0x2E ∧ d.peekOrNul ≠ 0x65 ∧ d.peekOrNul ≠ 0x45 := by
      rw [peekOrNul_eq, h]
      simp only [fracText, expText, List.nil_append]
      cases r with
      | nil => decide
      | cons c r =>
        have h1 := hr.nodot rfl rfl c (by simp)
        have h2 := hr.noexp rfl c (by simp)
        exact ⟨by simpa using h1, by simpa using h2.1, by simpa using h2.2⟩
    unfold parseNumber intEvent
    rw [if_neg hp.1, if_neg (by simp [hp])]
    simp only [and_self, if_true]
    cases nn with
    | true => rfl
    | false =>
      simp only [Bool.false_eq_true, if_false]
      rcases neg_cases hsig with ⟨h1, h2, h3⟩ | ⟨h1, h2⟩
      · rw [if_neg h3, if_pos h1, h2]
      · rw [if_pos h2, if_neg h1]
  · refine ⟨d', t, e, ?_⟩
    rw [if_neg hn, ← conv, ← e2]
    unfold parseNumber
    by_cases h1 : d.peekOrNul = 0x2E
    · rw [if_pos h1, if_pos h1]
    · rw [if_neg h1, if_neg h1]
      have h2 : d.peekOrNul = 0x65 ∨ d.peekOrNul = 0x45 := by
        cases fo with
        | some fs => exact absurd (peek_digit (r := _) h) h1
        | none =>
          cases xo with
          | none => exact absurd ⟨rfl, rfl⟩ hn
          | some x =>
            have : d.peekOrNul = if x.upper then 0x45 else 0x65 := peek_digit (r := _) (by rw [h, fracText, expText, ExpPart.text]; rfl)
            rw [this]; cases x.upper <;> simp
      rw [if_pos h2, if_pos h2]

theorem integerLoop_spec {nn : Bool} {sig : Nat} {ds : Bytes} {fo : Option Bytes}
    {xo : Option ExpPart} {r : Bytes} {d : De}
    (h : d.rest = ds ++ (fracText fo ++ (expText xo ++ r))) (hd : AllDigits ds) (hf : ∀ fs, fo = some fs → Digits fs)
    (hx : ∀ x, xo = some x → Digits x.digits) (hr : Follow fo xo r) (hsig : sig ≤ U64_MAX) :
    ∃ d', Eats d d' (ds ++ (fracText fo ++ expText xo)) ∧ d'.rest = r ∧
      integerLoop d nn sig =
        if (accum U64_MAX sig ds).2 = 0 ∧ fo = none ∧ xo = none then .ok (intEvent nn (accum U64_MAX sig ds).1, d')
        else (i32 (accum U64_MAX sig ds).2).bind fun e =>
          ((fracValue nn (accum U64_MAX sig ds).1 e xo fo).map .float).bind fun ev => .ok (ev, d') := by
  induction ds generalizing d sig with
  | nil =>
    obtain ⟨d', t, e, e2⟩ := parseNumber_spec (nn := nn) (sig := sig) h hf hx hr hsig
    refine ⟨d', t, e, ?_⟩
    rw [integerLoop, dif_neg]
    · rw [e2]; simp [accum, i32_ok (z := 0) (by decide)]
    · rw [peek_nodigit]
      · simp
      · rw [h]
        intro c hc
        cases fo with
        | some fs => simp [fracText] at hc; subst hc; rfl
        | none => exact expText_head hr.nodigit c hc
  | cons c cs ih =>
    obtain ⟨h1, h2, h3, h4⟩ := rest_cons h
    have hcd : isDigit c = true := hd c (by simp)
    have hc : isDigit d.peekOrNul = true := by rw [peek_digit h]; exact hcd
    have hv := digitVal_le hcd
    have hdv : digitVal c = c.toNat - 48 := rfl
    rw [integerLoop, dif_pos hc]
    simp only [peek_digit h]
    by_cases ho : overflows sig (digitVal c) U64_MAX = true
    · rw [if_pos ho]
      rw [overflows_iff hv] at ho
      have ha : accum U64_MAX sig (c :: cs) = (sig, cs.length + 1) := by
        rw [accum, if_neg (by omega)]
      simp only [ha]
      obtain ⟨d', t, e, e2⟩ := parseLongInteger_spec (nn := nn) (sig := sig) (st := 1) h3 (fun x hx => hd x (by simp [hx]))
        hf hx hr (by decide) (by decide)
      refine ⟨d', h4.cons t, e, ?_⟩
      rw [e2, if_neg (by simp)]
      have : (1 : Int) + cs.length = ((cs.length + 1 : Nat) : Int) := by omega
      rw [this]
      cases i32 ((cs.length + 1 : Nat) : Int) with
      | ok e => simp only [Res.bind_ok']; cases fracValue nn sig e xo fo <;> rfl
      | err => rfl
      | panic => rfl
    · rw [if_neg ho]
      rw [overflows_iff hv] at ho
      have ha : accum U64_MAX sig (c :: cs) = accum U64_MAX (sig * 10 + digitVal c) cs := by
        rw [accum, if_pos (by omega)]; rfl
      rw [ha, u64_ok (by omega)]
      obtain ⟨d', t, e, e2⟩ := ih (sig := sig * 10 + digitVal c) h3 (fun x hx => hd x (by simp [hx])) (by omega)
      exact ⟨d', h4.cons t, e, e2⟩

/-- `parse_integer` on a well-formed unsigned literal. -/
theorem parseInteger_spec {nn : Bool} {c : UInt8} {cs : Bytes} {fo : Option Bytes}
    {xo : Option ExpPart} {r : Bytes} {d : De}
    (h : d.rest = cs ++ (fracText fo ++ (expText xo ++ r))) (hd : AllDigits (c :: cs)) (hz : c = 0x30 → cs = [])
    (hf : ∀ fs, fo = some fs → Digits fs)
    (hx : ∀ x, xo = some x → Digits x.digits) (hr : Follow fo xo r) :
    ∃ d', Eats d d' (cs ++ (fracText fo ++ expText xo)) ∧ d'.rest = r ∧
      parseInteger d nn c =
        if (accum U64_MAX 0 (c :: cs)).2 = 0 ∧ fo = none ∧ xo = none then .ok (intEvent nn (accum U64_MAX 0 (c :: cs)).1, d')
        else (i32 (accum U64_MAX 0 (c :: cs)).2).bind fun e =>
          ((fracValue nn (accum U64_MAX 0 (c :: cs)).1 e xo fo).map .float).bind fun ev => .ok (ev, d') := by
  have hcd : isDigit c = true := hd c (by simp)
  have hv := digitVal_le hcd
  have hdv : digitVal c = c.toNat - 48 := rfl
  have ha : accum U64_MAX 0 (c :: cs) = accum U64_MAX (digitVal c) cs := by
    rw [accum, if_pos (by simp only [U64_MAX]; omega)]; simp [hdv]
  rw [ha]
  unfold parseInteger
  by_cases h0 : c = 0x30
  · have := hz h0
    subst this
    subst h0
    rw [if_pos rfl, if_neg]
    · obtain ⟨d', t, e, e2⟩ := parseNumber_spec (nn := nn) (sig := 0) h hf hx hr (by decide)
      refine ⟨d', t, e, ?_⟩
      rw [e2]
      have : digitVal 0x30 = 0 := rfl
      simp [accum, this, i32_ok (z := 0) (by decide)]
    · rw [peek_nodigit]
      · simp
      · rw [h]
        intro c hc
        cases fo with
        | some fs => simp [fracText] at hc; subst hc; rfl
        | none => exact expText_head hr.nodigit c hc
  · rw [if_neg h0, if_pos hcd]
    exact integerLoop_spec (nn := nn) h (fun x hx => hd x (by simp [hx])) hf hx hr (by simp only [U64_MAX]; omega)

end De
end Miniserde
