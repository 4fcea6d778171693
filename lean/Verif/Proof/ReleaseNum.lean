import Verif.Proof.EventSpec
import Verif.Spec.Release

/-!
# Tokens in a release build

As `Proof/Num.lean`, `Proof/Token.lean` and `Proof/EventSpec.lean`, for `eventA .release`: no bound on the length of the input, and no panics.
-/

namespace Miniserde

/-- A token and the event a release build delivers for it. -/
inductive TokR : Bytes → Event → Prop
  | null : TokR (str! "null") .null
  | true : TokR (str! "true") (.bool true)
  | false : TokR (str! "false") (.bool false)
  | num (l : NumLit) (h : l.WF) (ev : Event) (he : numEventR l = .ok ev) : TokR l.text ev
  | str {t s : Bytes} (h : JString t s) : TokR t (.str s)
  | open_ : TokR [0x5B] .seqStart
  | brace : TokR [0x7B] .mapStart

theorem wrap_wrap (z : Int) : wrapI32 (wrapI32 z) = wrapI32 z := by unfold wrapI32; omega
theorem wrap_sub (z k : Int) : wrapI32 (wrapI32 z - k) = wrapI32 (z - k) := by unfold wrapI32; omega
theorem wrap_add (z k : Int) : wrapI32 (wrapI32 z + k) = wrapI32 (z + k) := by unfold wrapI32; omega
theorem wrap_zero : wrapI32 0 = 0 := by decide
theorem wrap_id {z : Int} (h : I32_MIN ≤ z ∧ z ≤ I32_MAX) : wrapI32 z = z := by
  simp only [I32_MIN, I32_MAX] at h; unfold wrapI32; omega
theorem relI32 (z : Int) : Arith.release.i32 z = .ok (wrapI32 z) := rfl
theorem relU64 {n : Nat} (h : n ≤ U64_MAX) : Arith.release.u64 n = .ok n := by
  simp only [U64_MAX] at h; show Res.ok _ = _; rw [Nat.mod_eq_of_lt (by omega)]

theorem fracValueR_ne_panic (nn : Bool) (s : Nat) (e : Int) (x : Option ExpPart) (fo : Option Bytes) :
    fracValueR nn s e x fo ≠ .panic := by
  cases fo <;> exact De.expValue_ne_panic _ _ _ _

/-- A release build never panics on a number. -/
theorem numEventR_ne_panic (l : NumLit) : numEventR l ≠ .panic := by
  unfold numEventR
  simp only
  split
  · split
    · split <;> simp
    · simp
  · have := fracValueR_ne_panic (!l.minus) (accum U64_MAX 0 l.int).1 (wrapI32 (accum U64_MAX 0 l.int).2) l.exp l.frac
    intro h
    revert this
    show fracValueR (!l.minus) (accum u64Max 0 l.int).1 (wrapI32 (accum u64Max 0 l.int).2) l.exp l.frac ≠ _ → _
    cases hh : fracValueR (!l.minus) (accum u64Max 0 l.int).1 (wrapI32 (accum u64Max 0 l.int).2) l.exp l.frac <;> rw [hh] at h <;> simp_all [Res.map]

theorem TokR.ne_nil {t : Bytes} {ev : Event} (h : TokR t ev) : t ≠ [] := by
  cases h with
  | num l h ev he =>
    intro h0
    have := h.1.1
    rw [De.numLit_text] at h0
    simp_all
  | str h => cases h; simp
  | _ => decide

namespace De

/-- Reading failed. -/
def BadR {α : Type} (_ : De) (x : Res α) : Prop := x = .err

theorem BadR.not_ok {α : Type} {d : De} {a : α} (h : BadR d (.ok a)) : False := by cases h

theorem BadR.mono {α : Type} {d d' : De} {c : Bytes} {x : Res α} (h : BadR d' x) (_ : Eats d d' c) : BadR d x := h

theorem BadR.mapFloat {d : De} {x : Res (F64 × De)} (h : BadR d x) : BadR d (mapFloat x) := by
  rw [show x = .err from h]; rfl

theorem decimalLoopR_spec {ds r : Bytes} {d : De} {one : Bool} {sig : Nat} {e : Int}
    (h : d.rest = ds ++ r) (hd : AllDigits ds) (hr : NoDigit r) (he : wrapI32 e = e) :
    ∃ d', Eats d d' ds ∧ d'.rest = r ∧ decimalLoopA .release d one sig e =
      .ok ((one || !ds.isEmpty, (accum U64_MAX sig ds).1, wrapI32 (e - ((ds.length - (accum U64_MAX sig ds).2 : Nat) : Int))), d') := by
  induction ds generalizing d sig e one with
  | nil =>
    refine ⟨d, .refl _, h, ?_⟩
    rw [decimalLoopA, dif_neg (by rw [peek_nodigit (by rw [h]; exact hr)]; simp)]
    simp [accum, he]
  | cons c cs ih =>
    obtain ⟨h1, h2, h3, h4⟩ := rest_cons h
    have hcd : isDigit c = true := hd c (by simp)
    have hc : isDigit d.peekOrNul = true := by rw [peek_digit h]; exact hcd
    have hv := digitVal_le hcd
    have hdv : digitVal c = c.toNat - 48 := rfl
    rw [decimalLoopA, dif_pos hc]
    simp only [peek_digit h]
    by_cases ho : overflows sig (digitVal c) U64_MAX = true
    · rw [if_pos ho]
      rw [overflows_iff hv] at ho
      have ha : accum U64_MAX sig (c :: cs) = (sig, cs.length + 1) := by
        rw [accum, if_neg (by omega)]
      simp only [ha]
      obtain ⟨t, e2⟩ := skipDigits_spec h3 (fun x hx => hd x (by simp [hx])) hr
      refine ⟨d.bump.skipDigits, h4.cons t, e2, ?_⟩
      simp [he]
    · rw [if_neg ho]
      rw [overflows_iff hv] at ho
      have ha : accum U64_MAX sig (c :: cs) = accum U64_MAX (sig * 10 + digitVal c) cs := by
        rw [accum, if_pos (by omega)]; rfl
      rw [ha, relU64 (by omega)]
      have hlen := accum_left_le (bound := U64_MAX) (acc := sig * 10 + digitVal c) (ds := cs)
      rw [relI32]
      simp only
      obtain ⟨d', t, e2, e3⟩ := ih (one := true) (sig := sig * 10 + digitVal c) (e := wrapI32 (e - 1)) h3
        (fun x hx => hd x (by simp [hx])) (wrap_wrap _)
      refine ⟨d', h4.cons t, e2, ?_⟩
      rw [e3, wrap_sub]
      have : e - 1 - ((cs.length - (accum U64_MAX (sig * 10 + digitVal c) cs).2 : Nat) : Int) =
        e - (((c :: cs).length - (accum U64_MAX (sig * 10 + digitVal c) cs).2 : Nat) : Int) := by
        simp; omega
      rw [this]; simp

theorem parseDecimalR_spec {nn : Bool} {sig : Nat} {st : Int} {fs : Bytes} {xo : Option ExpPart} {r : Bytes} {d : De}
    (h : d.rest = 0x2E :: (fs ++ (expText xo ++ r))) (hf : Digits fs) (hx : ∀ x, xo = some x → Digits x.digits)
    (hr : Follow (some fs) xo r) (hs : wrapI32 st = st) :
    ∃ d', Eats d d' (0x2E :: fs ++ expText xo) ∧ d'.rest = r ∧
      parseDecimalA .release d nn sig st = (fracValueR nn sig st xo (some fs)).bind fun f => .ok (f, d') := by
  obtain ⟨h1, h2, h3, h4⟩ := rest_cons h
  obtain ⟨hne, hd⟩ := digits_iff.1 hf
  obtain ⟨d1, t1, e1, e2⟩ := decimalLoopR_spec (one := false) (sig := sig) h3 hd (expText_head hr.nodigit) hs
  unfold parseDecimalA fracValueR
  rw [e2]
  have hemp : fs.isEmpty = false := by cases fs with
    | nil => exact absurd rfl hne
    | cons => rfl
  obtain ⟨d', t, e3, e4⟩ := expPart_spec (nn := nn) (sig := (accum U64_MAX sig fs).1)
    (st := wrapI32 (st - ((fs.length - (accum U64_MAX sig fs).2 : Nat) : Int))) e1 hx ⟨hr.nodigit, hr.noexp, by simp⟩
  refine ⟨d', ?_, e3, ?_⟩
  · have := h4.cons (t1.trans t)
    simpa using this
  · simp only [Res.bind_ok', hemp]
    rw [if_neg (by simp)]
    exact e4

theorem numTailR_spec {nn : Bool} {sig : Nat} {st : Int} {fo : Option Bytes} {xo : Option ExpPart} {r : Bytes} {d : De}
    (h : d.rest = fracText fo ++ (expText xo ++ r)) (hf : ∀ fs, fo = some fs → Digits fs)
    (hx : ∀ x, xo = some x → Digits x.digits) (hr : Follow fo xo r) (hs : wrapI32 st = st) :
    ∃ d', Eats d d' (fracText fo ++ expText xo) ∧ d'.rest = r ∧
      (if d.peekOrNul = b('.') then d.parseDecimalA .release nn sig st
        else if d.peekOrNul = b('e') ∨ d.peekOrNul = b('E') then d.parseExponent nn sig st
        else (f64FromParts nn sig st).bind fun f => .ok (f, d)) =
      (fracValueR nn sig st xo fo).bind fun f => .ok (f, d') := by
  cases fo with
  | some fs =>
    obtain ⟨d', t, e, e2⟩ := parseDecimalR_spec (nn := nn) (sig := sig) (st := st) h (hf fs rfl) hx hr hs
    refine ⟨d', t, e, ?_⟩
    rw [if_pos]
    · exact e2
    · exact peek_digit h
  | none =>
    obtain ⟨d', t, e, e2⟩ := expPart_spec (nn := nn) (sig := sig) (st := st) (d := d) (xo := xo) (r := r) h hx
      ⟨hr.nodigit, hr.noexp, by simp⟩
    refine ⟨d', t, e, ?_⟩
    rw [if_neg]
    · exact e2
    · rw [peekOrNul_eq, h]
      cases xo with
      | some x =>
        simp only [fracText, expText, ExpPart.text]
        cases x.upper <;> simp
      | none =>
        cases r with
        | nil => simp [fracText, expText]
        | cons c r => have := hr.nodot rfl rfl c (by simp); simpa [fracText, expText] using this

theorem parseLongIntegerR_spec {nn : Bool} {sig : Nat} {ds : Bytes} {st : Int} {fo : Option Bytes}
    {xo : Option ExpPart} {r : Bytes} {d : De}
    (h : d.rest = ds ++ (fracText fo ++ (expText xo ++ r))) (hd : AllDigits ds) (hf : ∀ fs, fo = some fs → Digits fs)
    (hx : ∀ x, xo = some x → Digits x.digits) (hr : Follow fo xo r) (hs : wrapI32 st = st) :
    ∃ d', Eats d d' (ds ++ (fracText fo ++ expText xo)) ∧ d'.rest = r ∧
      parseLongIntegerA .release d nn sig st = 
        (fracValueR nn sig (wrapI32 (st + ds.length)) xo fo).bind fun f => .ok (f, d') := by
  induction ds generalizing d st with
  | nil =>
    obtain ⟨d', t, e, e2⟩ := numTailR_spec (nn := nn) (sig := sig) (st := st) h hf hx hr hs
    refine ⟨d', t, e, ?_⟩
    rw [parseLongIntegerA, dif_neg]
    · simp only [List.length_nil, Int.natCast_zero, Int.add_zero, hs]
      exact e2
    · rw [peek_nodigit]
      · simp
      · rw [h]
        intro c hc
        cases fo with
        | some fs => simp [fracText] at hc; subst hc; rfl
        | none => exact expText_head hr.nodigit c hc
  | cons c cs ih =>
    obtain ⟨h1, h2, h3, h4⟩ := rest_cons h
    have hcd : isDigit c = true := hd c (by simp)
    have hc : isDigit d.peekOrNul = true := by rw [peek_digit h]; exact hcd
    rw [parseLongIntegerA, dif_pos hc]
    rw [relI32]
    simp only
    obtain ⟨d', t, e, e2⟩ := ih (st := wrapI32 (st + 1)) h3 (fun x hx => hd x (by simp [hx])) (wrap_wrap _)
    refine ⟨d', h4.cons t, e, ?_⟩
    rw [e2, wrap_add]
    have : st + 1 + (cs.length : Int) = st + ((c :: cs).length : Int) := by simp; omega
    rw [this]

theorem parseNumberR_spec {nn : Bool} {sig : Nat} {fo : Option Bytes} {xo : Option ExpPart} {r : Bytes} {d : De}
    (h : d.rest = fracText fo ++ (expText xo ++ r)) (hf : ∀ fs, fo = some fs → Digits fs)
    (hx : ∀ x, xo = some x → Digits x.digits) (hr : Follow fo xo r) (hsig : sig ≤ U64_MAX) :
    ∃ d', Eats d d' (fracText fo ++ expText xo) ∧ d'.rest = r ∧
      parseNumberA .release d nn sig =
        if fo = none ∧ xo = none then .ok (intEvent nn sig, d')
        else ((fracValueR nn sig 0 xo fo).map .float).bind fun ev => .ok (ev, d') := by
  obtain ⟨d', t, e, e2⟩ := numTailR_spec (nn := nn) (sig := sig) (st := 0) h hf hx hr (by decide)
  have conv : ∀ (a : Res F64), mapFloat (a.bind fun f => .ok (f, d')) = (a.map .float).bind fun ev => .ok (ev, d') := by
    intro a; cases a <;> rfl
  by_cases hn : fo = none ∧ xo = none
  · obtain ⟨rfl, rfl⟩ := hn
    refine ⟨d, .refl _, h, ?_⟩
    have hp : d.peekOrNul ≠ 0x2E ∧ d.peekOrNul ≠ 0x65 ∧ d.peekOrNul ≠ 0x45 := by
      rw [peekOrNul_eq, h]
      simp only [fracText, expText, List.nil_append]
      cases r with
      | nil => decide
      | cons c r =>
        have h1 := hr.nodot rfl rfl c (by simp)
        have h2 := hr.noexp rfl c (by simp)
        exact ⟨by simpa using h1, by simpa using h2.1, by simpa using h2.2⟩
    unfold parseNumberA intEvent
    rw [if_neg hp.1, if_neg (by simp [hp])]
    simp only [and_self, if_true]
    cases nn with
    | true => rfl
    | false =>
      simp only [Bool.false_eq_true, if_false]
      rcases neg_cases hsig with ⟨h1, h2, h3⟩ | ⟨h1, h2⟩
      · rw [if_neg h3, if_pos h1, h2]
      · rw [if_pos h2, if_neg h1]
  · refine ⟨d', t, e, ?_⟩
    rw [if_neg hn, ← conv, ← e2]
    unfold parseNumberA
    by_cases h1 : d.peekOrNul = 0x2E
    · rw [if_pos h1, if_pos h1]
    · rw [if_neg h1, if_neg h1]
      have h2 : d.peekOrNul = 0x65 ∨ d.peekOrNul = 0x45 := by
        cases fo with
        | some fs => exact absurd (peek_digit (r := _) h) h1
        | none =>
          cases xo with
          | none => exact absurd ⟨rfl, rfl⟩ hn
          | some x =>
            have : d.peekOrNul = if x.upper then 0x45 else 0x65 := peek_digit (r := _) (by rw [h, fracText, expText, ExpPart.text]; rfl)
            rw [this]; cases x.upper <;> simp
      rw [if_pos h2, if_pos h2]

theorem integerLoopR_spec {nn : Bool} {sig : Nat} {ds : Bytes} {fo : Option Bytes}
    {xo : Option ExpPart} {r : Bytes} {d : De}
    (h : d.rest = ds ++ (fracText fo ++ (expText xo ++ r))) (hd : AllDigits ds) (hf : ∀ fs, fo = some fs → Digits fs)
    (hx : ∀ x, xo = some x → Digits x.digits) (hr : Follow fo xo r) (hsig : sig ≤ U64_MAX) :
    ∃ d', Eats d d' (ds ++ (fracText fo ++ expText xo)) ∧ d'.rest = r ∧
      integerLoopA .release d nn sig =
        if (accum U64_MAX sig ds).2 = 0 ∧ fo = none ∧ xo = none then .ok (intEvent nn (accum U64_MAX sig ds).1, d')
        else ((fracValueR nn (accum U64_MAX sig ds).1 (wrapI32 (accum U64_MAX sig ds).2) xo fo).map .float).bind fun ev => .ok (ev, d') := by
  induction ds generalizing d sig with
  | nil =>
    obtain ⟨d', t, e, e2⟩ := parseNumberR_spec (nn := nn) (sig := sig) h hf hx hr hsig
    refine ⟨d', t, e, ?_⟩
    rw [integerLoopA, dif_neg]
    · rw [e2]; simp [accum, wrap_zero]
    · rw [peek_nodigit]
      · simp
      · rw [h]
        intro c hc
        cases fo with
        | some fs => simp [fracText] at hc; subst hc; rfl
        | none => exact expText_head hr.nodigit c hc
  | cons c cs ih =>
    obtain ⟨h1, h2, h3, h4⟩ := rest_cons h
    have hcd : isDigit c = true := hd c (by simp)
    have hc : isDigit d.peekOrNul = true := by rw [peek_digit h]; exact hcd
    have hv := digitVal_le hcd
    have hdv : digitVal c = c.toNat - 48 := rfl
    rw [integerLoopA, dif_pos hc]
    simp only [peek_digit h]
    by_cases ho : overflows sig (digitVal c) U64_MAX = true
    · rw [if_pos ho]
      rw [overflows_iff hv] at ho
      have ha : accum U64_MAX sig (c :: cs) = (sig, cs.length + 1) := by
        rw [accum, if_neg (by omega)]
      simp only [ha]
      obtain ⟨d', t, e, e2⟩ := parseLongIntegerR_spec (nn := nn) (sig := sig) (st := 1) h3 (fun x hx => hd x (by simp [hx]))
        hf hx hr (by decide)
      refine ⟨d', h4.cons t, e, ?_⟩
      rw [e2, if_neg (by simp)]
      have : (1 : Int) + cs.length = ((cs.length + 1 : Nat) : Int) := by omega
      rw [this]
      cases fracValueR nn sig (wrapI32 ((cs.length + 1 : Nat) : Int)) xo fo <;> rfl
    · rw [if_neg ho]
      rw [overflows_iff hv] at ho
      have ha : accum U64_MAX sig (c :: cs) = accum U64_MAX (sig * 10 + digitVal c) cs := by
        rw [accum, if_pos (by omega)]; rfl
      rw [ha, relU64 (by omega)]
      obtain ⟨d', t, e, e2⟩ := ih (sig := sig * 10 + digitVal c) h3 (fun x hx => hd x (by simp [hx])) (by omega)
      exact ⟨d', h4.cons t, e, e2⟩

theorem parseIntegerR_spec {nn : Bool} {c : UInt8} {cs : Bytes} {fo : Option Bytes}
    {xo : Option ExpPart} {r : Bytes} {d : De}
    (h : d.rest = cs ++ (fracText fo ++ (expText xo ++ r))) (hd : AllDigits (c :: cs)) (hz : c = 0x30 → cs = [])
    (hf : ∀ fs, fo = some fs → Digits fs)
    (hx : ∀ x, xo = some x → Digits x.digits) (hr : Follow fo xo r) :
    ∃ d', Eats d d' (cs ++ (fracText fo ++ expText xo)) ∧ d'.rest = r ∧
      parseIntegerA .release d nn c =
        if (accum U64_MAX 0 (c :: cs)).2 = 0 ∧ fo = none ∧ xo = none then .ok (intEvent nn (accum U64_MAX 0 (c :: cs)).1, d')
        else ((fracValueR nn (accum U64_MAX 0 (c :: cs)).1 (wrapI32 (accum U64_MAX 0 (c :: cs)).2) xo fo).map .float).bind fun ev => .ok (ev, d') := by
  have hcd : isDigit c = true := hd c (by simp)
  have hv := digitVal_le hcd
  have hdv : digitVal c = c.toNat - 48 := rfl
  have ha : accum U64_MAX 0 (c :: cs) = accum U64_MAX (digitVal c) cs := by
    rw [accum, if_pos (by simp only [U64_MAX]; omega)]; simp [hdv]
  rw [ha]
  unfold parseIntegerA
  by_cases h0 : c = 0x30
  · have := hz h0
    subst this
    subst h0
    rw [if_pos rfl, if_neg]
    · obtain ⟨d', t, e, e2⟩ := parseNumberR_spec (nn := nn) (sig := 0) h hf hx hr (by decide)
      refine ⟨d', t, e, ?_⟩
      rw [e2]
      have : digitVal 0x30 = 0 := rfl
      simp [accum, this, wrap_zero]
    · rw [peek_nodigit]
      · simp
      · rw [h]
        intro c hc
        cases fo with
        | some fs => simp [fracText] at hc; subst hc; rfl
        | none => exact expText_head hr.nodigit c hc
  · rw [if_neg h0, if_pos hcd]
    exact integerLoopR_spec (nn := nn) h (fun x hx => hd x (by simp [hx])) hf hx hr (by simp only [U64_MAX]; omega)

/-- `numTail` in a release build. -/
def numTailR (d : De) (nn : Bool) (sig : Nat) (st : Int) : Res (F64 × De) :=
  if d.peekOrNul = b('.') then d.parseDecimalA .release nn sig st
  else if d.peekOrNul = b('e') ∨ d.peekOrNul = b('E') then d.parseExponent nn sig st
  else (f64FromParts nn sig st).bind fun f => .ok (f, d)

theorem parseLongIntegerR_reach {nn : Bool} {sig : Nat} {ds r : Bytes} {st : Int} {d : De} (h : d.rest = ds ++ r)
    (hd : AllDigits ds) (hr : NoDigit r) (hs : wrapI32 st = st) :
    ∃ d', Eats d d' ds ∧ d'.rest = r ∧
      parseLongIntegerA .release d nn sig st = numTailR d' nn sig (wrapI32 (st + ds.length)) := by
  induction ds generalizing d st with
  | nil =>
    refine ⟨d, .refl _, h, ?_⟩
    rw [parseLongIntegerA, dif_neg (by rw [peek_nodigit (by rw [h]; exact hr)]; simp)]
    simp only [List.length_nil, Int.natCast_zero, Int.add_zero, hs]
    rfl
  | cons c cs ih =>
    obtain ⟨h1, h2, h3, h4⟩ := rest_cons h
    have hcd : isDigit c = true := hd c (by simp)
    have hc : isDigit d.peekOrNul = true := by rw [peek_digit h]; exact hcd
    rw [parseLongIntegerA, dif_pos hc]
    rw [relI32]
    simp only
    obtain ⟨d', t, e, e2⟩ := ih (st := wrapI32 (st + 1)) h3 (fun x hx => hd x (by simp [hx])) (wrap_wrap _)
    refine ⟨d', h4.cons t, e, ?_⟩
    rw [e2, wrap_add]
    have : st + 1 + (cs.length : Int) = st + ((c :: cs).length : Int) := by simp; omega
    rw [this]

theorem integerLoopR_reach {nn : Bool} {sig : Nat} {ds r : Bytes} {d : De} (h : d.rest = ds ++ r) (hd : AllDigits ds)
    (hr : NoDigit r) (hsig : sig ≤ U64_MAX) :
    ∃ d', Eats d d' ds ∧ d'.rest = r ∧ integerLoopA .release d nn sig =
      if (accum U64_MAX sig ds).2 = 0 then parseNumberA .release d' nn (accum U64_MAX sig ds).1
      else mapFloat (numTailR d' nn (accum U64_MAX sig ds).1 (wrapI32 (accum U64_MAX sig ds).2)) := by
  induction ds generalizing d sig with
  | nil =>
    refine ⟨d, .refl _, h, ?_⟩
    rw [integerLoopA, dif_neg (by rw [peek_nodigit (by rw [h]; exact hr)]; simp)]
    simp [accum]
  | cons c cs ih =>
    obtain ⟨h1, h2, h3, h4⟩ := rest_cons h
    have hcd : isDigit c = true := hd c (by simp)
    have hc : isDigit d.peekOrNul = true := by rw [peek_digit h]; exact hcd
    have hv := digitVal_le hcd
    have hdv : digitVal c = c.toNat - 48 := rfl
    rw [integerLoopA, dif_pos hc]
    simp only [peek_digit h]
    by_cases ho : overflows sig (digitVal c) U64_MAX = true
    · rw [if_pos ho]
      rw [overflows_iff hv] at ho
      have ha : accum U64_MAX sig (c :: cs) = (sig, cs.length + 1) := by
        rw [accum, if_neg (by omega)]
      simp only [ha]
      obtain ⟨d', t, e, e2⟩ := parseLongIntegerR_reach (nn := nn) (sig := sig) (st := 1) h3 (fun x hx => hd x (by simp [hx]))
        hr (by decide)
      refine ⟨d', h4.cons t, e, ?_⟩
      rw [e2, if_neg (by simp)]
      have : (1 : Int) + cs.length = ((cs.length + 1 : Nat) : Int) := by omega
      rw [this]
    · rw [if_neg ho]
      rw [overflows_iff hv] at ho
      have ha : accum U64_MAX sig (c :: cs) = accum U64_MAX (sig * 10 + digitVal c) cs := by
        rw [accum, if_pos (by omega)]; rfl
      rw [ha, relU64 (by omega)]
      obtain ⟨d', t, e, e2⟩ := ih (sig := sig * 10 + digitVal c) h3 (fun x hx => hd x (by simp [hx])) (by omega)
      exact ⟨d', h4.cons t, e, e2⟩

theorem parseDecimalR_cases {d : De} {r : Bytes} (nn : Bool) (sig : Nat) {st : Int} (h : d.rest = 0x2E :: r)
    (hst : wrapI32 st = st) :
    TailOk d ∨ BadR d (parseDecimalA .release d nn sig st) := by
  obtain ⟨h1, h2, h3, h4⟩ := rest_cons h
  obtain ⟨fs, r', e, a1, a2⟩ := span_digits r
  rw [e] at h3
  obtain ⟨d1, t1, e1, e2⟩ := decimalLoopR_spec (one := false) (sig := sig) (e := st) h3 a1 a2 hst
  have hr := (h4.cons t1).rem
  unfold parseDecimalA
  rw [e2]
  simp only [Res.bind_ok']
  cases fs with
  | nil => right; rfl
  | cons c cs =>
    rw [if_neg (by simp)]
    rcases exp_cases (d := d1) nn (accum U64_MAX sig (c :: cs)).1
      (wrapI32 (st - (((c :: cs).length - (accum U64_MAX sig (c :: cs)).2 : Nat) : Int))) (by rw [e1]; exact a2) with ⟨xo, r2, f1, f2, f3⟩ | ⟨f1, f2⟩
    · left
      refine ⟨some (c :: cs), xo, r2, ?_, by simp; exact digits_iff.2 ⟨by simp, a1⟩, f2, ⟨f3.nodigit, f3.noexp, by simp⟩⟩
      rw [h, e, ← e1, f1]; rfl
    · right
      rw [if_pos f1, f2]; rfl

theorem numTailR_cases {d : De} (nn : Bool) (sig : Nat) {st : Int} (hnd : NoDigit d.rest)
    (hst : wrapI32 st = st) :
    TailOk d ∨ ((d.peekOrNul = 0x2E ∨ d.peekOrNul = 0x65 ∨ d.peekOrNul = 0x45) ∧ BadR d (numTailR d nn sig st)) := by
  unfold numTailR
  by_cases hp : d.peekOrNul = 0x2E
  · have : ∃ r, d.rest = 0x2E :: r := by
      rcases d.head_cases with h | ⟨c, r, h⟩
      · rw [peekOrNul_eq, h] at hp; simp at hp
      · rw [peek_digit h] at hp; subst hp; exact ⟨r, h⟩
    obtain ⟨r, h⟩ := this
    rw [if_pos hp]
    rcases parseDecimalR_cases nn sig h hst with h' | h'
    · exact .inl h'
    · exact .inr ⟨.inl hp, h'⟩
  · rw [if_neg hp]
    rcases exp_cases nn sig st hnd with ⟨xo, r, f1, f2, f3⟩ | ⟨f1, f2⟩
    · left
      refine ⟨none, xo, r, f1, by simp, f2, ⟨f3.nodigit, f3.noexp, ?_⟩⟩
      rintro rfl - c hc rfl
      rw [peekOrNul_eq, f1] at hp
      simp [expText, hc] at hp
    · right
      exact ⟨.inr f1, by rw [if_pos f1, f2]; rfl⟩

theorem parseNumberR_bad {d : De} {nn : Bool} {sig : Nat} (hp : d.peekOrNul = 0x2E ∨ d.peekOrNul = 0x65 ∨ d.peekOrNul = 0x45)
    (h : BadR d (numTailR d nn sig 0)) : BadR d (parseNumberA .release d nn sig) := by
  unfold parseNumberA
  unfold numTailR at h
  split
  · rename_i h'
    rw [if_pos h'] at h
    exact h.mapFloat
  · rename_i h'
    rw [if_neg h'] at h
    have : d.peekOrNul = 0x65 ∨ d.peekOrNul = 0x45 := by
      rcases hp with hp | hp
      · exact absurd hp h'
      · exact hp
    rw [if_pos this] at h ⊢
    exact h.mapFloat

theorem parseIntegerR_cases (d : De) (nn : Bool) (c : UInt8) :
    (∃ (cs : Bytes) (fo : Option Bytes) (xo : Option ExpPart) (r : Bytes),
      d.rest = cs ++ (fracText fo ++ (expText xo ++ r)) ∧ AllDigits (c :: cs) ∧ (c = 0x30 → cs = []) ∧
      (∀ fs, fo = some fs → Digits fs) ∧ (∀ x, xo = some x → Digits x.digits) ∧ Follow fo xo r) ∨
    BadR d (parseIntegerA .release d nn c) := by
  unfold parseIntegerA
  by_cases h0 : c = 0x30
  · rw [if_pos h0]
    by_cases hp : isDigit d.peekOrNul = true
    · rw [if_pos hp]; exact .inr rfl
    · rw [if_neg hp]
      have hnd : NoDigit d.rest := by
        intro c hc
        rw [peekOrNul_eq, hc] at hp
        simpa using hp
      rcases numTailR_cases nn 0 hnd (st := 0) (by decide) with ⟨fo, xo, r, h1, h2, h3, h4⟩ | ⟨h1, h2⟩
      · left
        exact ⟨[], fo, xo, r, h1, by subst h0; intro x hx; simp at hx; subst hx; rfl, fun _ => rfl, h2, h3, h4⟩
      · right; exact parseNumberR_bad h1 h2
  · rw [if_neg h0]
    by_cases hc : isDigit c = true
    · rw [if_pos hc]
      have hv := digitVal_le hc
      obtain ⟨cs, r, e, a1, a2⟩ := span_digits d.rest
      obtain ⟨d1, t1, e1, e2⟩ := integerLoopR_reach (nn := nn) (sig := digitVal c) e a1 a2 (by simp only [U64_MAX]; omega)
      have hl := accum_left_le (bound := U64_MAX) (acc := digitVal c) (ds := cs)
      rw [e2]
      have all : AllDigits (c :: cs) := by
        intro x hx
        simp at hx
        rcases hx with rfl | hx
        · exact hc
        · exact a1 x hx
      have fin : TailOk d1 → ∃ (cs : Bytes) (fo : Option Bytes) (xo : Option ExpPart) (r : Bytes),
          d.rest = cs ++ (fracText fo ++ (expText xo ++ r)) ∧ AllDigits (c :: cs) ∧ (c = 0x30 → cs = []) ∧
          (∀ fs, fo = some fs → Digits fs) ∧ (∀ x, xo = some x → Digits x.digits) ∧ Follow fo xo r := by
        rintro ⟨fo, xo, r', h1, h2, h3, h4⟩
        exact ⟨cs, fo, xo, r', by rw [e, ← e1, h1], all, fun h => absurd h h0, h2, h3, h4⟩
      by_cases hz : (accum U64_MAX (digitVal c) cs).2 = 0
      · rw [if_pos hz]
        rcases numTailR_cases (d := d1) nn (accum U64_MAX (digitVal c) cs).1 (by rw [e1]; exact a2) (st := 0) (by decide) with h | ⟨h1, h2⟩
        · exact .inl (fin h)
        · exact .inr ((parseNumberR_bad h1 h2).mono t1)
      · rw [if_neg hz]
        rcases numTailR_cases (d := d1) nn (accum U64_MAX (digitVal c) cs).1 (by rw [e1]; exact a2)
          (wrap_wrap ((accum U64_MAX (digitVal c) cs).2 : Int)) with h | ⟨h1, h2⟩
        · exact .inl (fin h)
        · exact .inr (h2.mapFloat.mono t1)
    · rw [if_neg hc]; exact .inr rfl

theorem parseIntegerR_numEventR {mn : Bool} {c : UInt8} {cs : Bytes} {fo : Option Bytes}
    {xo : Option ExpPart} {r : Bytes} {d : De}
    (h : d.rest = cs ++ (fracText fo ++ (expText xo ++ r))) (hd : AllDigits (c :: cs)) (hz : c = 0x30 → cs = [])
    (hf : ∀ fs, fo = some fs → Digits fs)
    (hx : ∀ x, xo = some x → Digits x.digits) (hr : Follow fo xo r) :
    ∃ d', Eats d d' (cs ++ (fracText fo ++ expText xo)) ∧ d'.rest = r ∧
      parseIntegerA .release d (!mn) c = (numEventR ⟨mn, c :: cs, fo, xo⟩).bind fun ev => .ok (ev, d') := by
  obtain ⟨d', t, e, e2⟩ := parseIntegerR_spec (nn := !mn) h hd hz hf hx hr
  refine ⟨d', t, e, ?_⟩
  rw [e2]
  unfold numEventR
  simp only
  split
  · cases mn
    · rfl
    · simp only [intEvent_eq, Bool.not_true, Bool.false_eq_true, if_false, if_true]
      split <;> rfl
  · rfl

theorem eventR_at {d d1 : De} {c : UInt8} {r : Bytes} (h : d.parseWhitespace = (some c, d1)) (_hr : d1.rest = c :: r) :
    d.eventA .release =
      if c = b('"') then d1.bump.parseStr.map fun p => (.str p.1, p.2)
      else if isDigit c then d1.bump.parseIntegerA .release true c
      else if c = b('-') then d1.bump.nextOrNul.2.parseIntegerA .release false d1.bump.nextOrNul.1
      else if c = b('{') then .ok (.mapStart, d1.bump)
      else if c = b('[') then .ok (.seqStart, d1.bump)
      else if c = b('n') then (d1.bump.parseIdent (str! "ull")).map fun d => (.null, d)
      else if c = b('t') then (d1.bump.parseIdent (str! "rue")).map fun d => (.bool true, d)
      else if c = b('f') then (d1.bump.parseIdent (str! "alse")).map fun d => (.bool false, d)
      else .err := by
  unfold eventA
  rw [h]

theorem eventR_spec (d : De) : BadR d (d.eventA .release) ∨
    ∃ w t ev d', d.eventA .release = .ok (ev, d') ∧ Ws w ∧ TokR t ev ∧ Eats d d' (w ++ t) := by
  obtain ⟨w, d1, hw, ws, tw, -, hn⟩ := parseWhitespace_spec d
  rcases d1.head_cases with h | ⟨c, r, h⟩
  · left
    unfold eventA
    rw [hw, h]; rfl
  obtain ⟨h1, h2, h3, h4⟩ := rest_cons h
  have hev := eventR_at (c := c) (by rw [hw, h]; rfl) h
  rw [hev]
  clear hev
  -- numbers: common ending
  have num : ∀ (mn : Bool) (c0 : UInt8) (d2 : De) (pre : Bytes), Eats d d2 (w ++ pre) →
      pre = (if mn then [0x2D, c0] else [c0]) → isDigit c0 = true ∨ parseIntegerA .release d2 (!mn) c0 = .err →
      BadR d (parseIntegerA .release d2 (!mn) c0) ∨
      ∃ w t ev d', parseIntegerA .release d2 (!mn) c0 = .ok (ev, d') ∧ Ws w ∧ TokR t ev ∧ Eats d d' (w ++ t) := by
    intro mn c0 d2 pre t2 hpre hdig
    rcases parseIntegerR_cases d2 (!mn) c0 with ⟨cs, fo, xo, r', e1, a1, a2, a3, a4, a5⟩ | hb
    · obtain ⟨d', t3, e3, e4⟩ := parseIntegerR_numEventR (mn := mn) e1 a1 a2 a3 a4 a5
      rw [e4]
      have ht : Eats d d' (w ++ (⟨mn, c0 :: cs, fo, xo⟩ : NumLit).text) := by
        have := t2.trans t3
        rw [numLit_text]
        subst hpre
        cases mn <;> simpa using this
      cases hne : numEventR ⟨mn, c0 :: cs, fo, xo⟩ with
      | ok ev =>
        right
        exact ⟨w, _, ev, d', rfl, ws, .num _ (wf_mk a1 a2 a3 a4) ev hne, ht⟩
      | err => left; rfl
      | panic =>
        exact absurd hne (numEventR_ne_panic _)
    · left; exact hb.mono t2
  split
  · rename_i hc
    subst hc
    rcases d1.bump.parseStr_spec with ⟨e, -⟩ | ⟨body, s, d', e, hb, te⟩
    · left; rw [e]; rfl
    · right
      rw [e]
      exact ⟨w, 0x22 :: (body ++ [0x22]), .str s, d', rfl, ws, .str (.mk hb), tw.trans (h4.cons te)⟩
  split
  · rename_i hc
    exact num false c d1.bump [c] (tw.trans h4) rfl (.inl hc)
  split
  · rename_i hc
    subst hc
    rcases d1.bump.head_cases with h' | ⟨c0, r0, h'⟩
    · left
      rw [nextOrNul_nil h']
      rfl
    · rw [nextOrNul_cons h']
      have := num true c0 d1.bump.bump [0x2D, c0] (tw.trans (h4.cons (rest_cons h').2.2.2)) rfl
      by_cases hd : isDigit c0 = true
      · exact this (.inl hd)
      · refine this (.inr ?_)
        simp only [parseIntegerA]
        have h0 : c0 ≠ 0x30 := by rintro rfl; exact hd rfl
        rw [if_neg h0, if_neg hd]
  split
  · rename_i hc
    subst hc
    right; exact ⟨w, _, _, _, rfl, ws, .brace, tw.trans h4⟩
  split
  · rename_i hc
    subst hc
    right; exact ⟨w, _, _, _, rfl, ws, .open_, tw.trans h4⟩
  have ident : ∀ (id : Bytes) (ev : Event), TokR (c :: id) ev →
      BadR d ((d1.bump.parseIdent id).map fun d => (ev, d)) ∨
      ∃ w t ev' d', (d1.bump.parseIdent id).map (fun d => (ev, d)) = .ok (ev', d') ∧ Ws w ∧ TokR t ev' ∧ Eats d d' (w ++ t) := by
    intro id ev ht
    rcases d1.bump.parseIdent_cases id with h' | ⟨r', h'⟩
    · left; rw [h']; rfl
    · obtain ⟨d', e, te, -⟩ := parseIdent_complete h'
      right
      rw [e]
      exact ⟨w, c :: id, ev, d', rfl, ws, ht, tw.trans (h4.cons te)⟩
  split
  · rename_i hc
    subst hc
    exact ident _ _ .null
  split
  · rename_i hc
    subst hc
    exact ident _ _ .true
  split
  · rename_i hc
    subst hc
    exact ident _ _ .false
  exact .inl rfl

theorem eventR_num {d : De} {w r : Bytes} {l : NumLit} (h : d.rest = w ++ (l.text ++ r)) (hw : Ws w) (hl : l.WF)
    (hr : Follow l.frac l.exp r) :
    ∃ d', Eats d d' (w ++ l.text) ∧ d'.rest = r ∧ d.eventA .release = (numEventR l).bind fun ev => .ok (ev, d') := by
  obtain ⟨mn, int, fo, xo⟩ := l
  obtain ⟨hi, hz, hf, hx⟩ := hl
  simp only at hi hz hf hx hr
  obtain ⟨c, cs, rfl⟩ : ∃ c cs, int = c :: cs := by
    cases int with
    | nil => exact absurd rfl hi.1
    | cons c cs => exact ⟨c, cs, rfl⟩
  have hd := (digits_iff.1 hi).2
  have hcd : isDigit c = true := hd c (by simp)
  have hz' : c = 0x30 → cs = [] := by
    rintro rfl
    have := hz (by simp)
    simpa using this
  rw [numLit_text] at h ⊢
  have hc22 : c ≠ 0x22 := by rintro rfl; revert hcd; decide
  cases mn with
  | false =>
    simp only [Bool.false_eq_true, if_false, List.nil_append, List.append_assoc, List.cons_append] at h
    obtain ⟨d1, e1, t1, e2⟩ := parseWhitespace_complete h hw (by
      intro c' hc'
      simp at hc'; subst hc'
      cases hh : isWs c with
      | false => rfl
      | true =>
        rw [isWs_iff] at hh
        rcases hh with rfl | rfl | rfl | rfl <;> revert hcd <;> decide)
    obtain ⟨-, -, h3, h4⟩ := rest_cons e2
    rw [eventR_at e1 e2, if_neg hc22, if_pos hcd]
    obtain ⟨d', t2, e3, e4⟩ := parseIntegerR_numEventR (mn := false) h3 hd hz' hf hx hr
    refine ⟨d', ?_, e3, e4⟩
    have := t1.trans (h4.cons t2)
    simpa using this
  | true =>
    simp only [if_true, List.append_assoc, List.cons_append, List.nil_append] at h
    obtain ⟨d1, e1, t1, e2⟩ := parseWhitespace_complete h hw (by
      intro c' hc'
      simp at hc'; subst hc'; rfl)
    obtain ⟨-, -, h3, h4⟩ := rest_cons e2
    obtain ⟨-, -, h5, h6⟩ := rest_cons h3
    rw [eventR_at e1 e2, if_neg (show ¬ ((0x2D : UInt8) = 0x22) by decide), if_neg (show ¬ (isDigit 0x2D = true) by decide),
      if_pos rfl, nextOrNul_cons h3]
    obtain ⟨d', t2, e3, e4⟩ := parseIntegerR_numEventR (mn := true) h5 hd hz' hf hx hr
    refine ⟨d', ?_, e3, e4⟩
    have := t1.trans (h4.cons (h6.cons t2))
    simpa using this

theorem eventR_str {d : De} {w r t s : Bytes} (h : d.rest = w ++ (t ++ r)) (hw : Ws w) (ht : JString t s) :
    ∃ d', Eats d d' (w ++ t) ∧ d'.rest = r ∧ d.eventA .release = .ok (.str s, d') := by
  cases ht with
  | @mk body _ hb =>
    obtain ⟨d1, e1, t1, e2⟩ := parseWhitespace_complete h hw (by
      intro c' hc'
      simp at hc'; subst hc'; rfl)
    obtain ⟨-, -, h3, h4⟩ := rest_cons (c := 0x22) (r := body ++ 0x22 :: r) (by rw [e2]; simp)
    rw [eventR_at e1 (r := body ++ 0x22 :: r) (by rw [e2]; simp), if_pos rfl]
    obtain ⟨d', e3, t3, e4⟩ := parseStr_complete h3 hb
    refine ⟨d', t1.trans (h4.cons t3), e4, ?_⟩
    rw [e3]; rfl

theorem eventR_open {d : De} {w r : Bytes} (h : d.rest = w ++ 0x5B :: r) (hw : Ws w) :
    ∃ d', Eats d d' (w ++ [0x5B]) ∧ d'.rest = r ∧ d.eventA .release = .ok (.seqStart, d') := by
  obtain ⟨d1, e1, t1, e2⟩ := parseWhitespace_complete h hw (by intro c' hc'; simp at hc'; subst hc'; rfl)
  obtain ⟨-, -, h3, h4⟩ := rest_cons e2
  exact ⟨d1.bump, t1.trans h4, h3, by rw [eventR_at e1 e2]; rfl⟩

theorem eventR_brace {d : De} {w r : Bytes} (h : d.rest = w ++ 0x7B :: r) (hw : Ws w) :
    ∃ d', Eats d d' (w ++ [0x7B]) ∧ d'.rest = r ∧ d.eventA .release = .ok (.mapStart, d') := by
  obtain ⟨d1, e1, t1, e2⟩ := parseWhitespace_complete h hw (by intro c' hc'; simp at hc'; subst hc'; rfl)
  obtain ⟨-, -, h3, h4⟩ := rest_cons e2
  exact ⟨d1.bump, t1.trans h4, h3, by rw [eventR_at e1 e2]; rfl⟩

theorem eventR_null {d : De} {w r : Bytes} (h : d.rest = w ++ (str! "null" ++ r)) (hw : Ws w) :
    ∃ d', Eats d d' (w ++ str! "null") ∧ d'.rest = r ∧ d.eventA .release = .ok (.null, d') := by
  obtain ⟨d1, e1, t1, e2⟩ := parseWhitespace_complete h hw (by intro c' hc'; simp at hc'; subst hc'; rfl)
  obtain ⟨-, -, h3, h4⟩ := rest_cons e2
  obtain ⟨d', e3, t3, e4⟩ := parseIdent_complete h3
  refine ⟨d', t1.trans (h4.cons t3), e4, ?_⟩
  rw [eventR_at e1 e2]
  simp [isDigit, e3]

theorem eventR_true {d : De} {w r : Bytes} (h : d.rest = w ++ (str! "true" ++ r)) (hw : Ws w) :
    ∃ d', Eats d d' (w ++ str! "true") ∧ d'.rest = r ∧ d.eventA .release = .ok (.bool true, d') := by
  obtain ⟨d1, e1, t1, e2⟩ := parseWhitespace_complete h hw (by intro c' hc'; simp at hc'; subst hc'; rfl)
  obtain ⟨-, -, h3, h4⟩ := rest_cons e2
  obtain ⟨d', e3, t3, e4⟩ := parseIdent_complete h3
  refine ⟨d', t1.trans (h4.cons t3), e4, ?_⟩
  rw [eventR_at e1 e2]
  simp [isDigit, e3]

theorem eventR_false {d : De} {w r : Bytes} (h : d.rest = w ++ (str! "false" ++ r)) (hw : Ws w) :
    ∃ d', Eats d d' (w ++ str! "false") ∧ d'.rest = r ∧ d.eventA .release = .ok (.bool false, d') := by
  obtain ⟨d1, e1, t1, e2⟩ := parseWhitespace_complete h hw (by intro c' hc'; simp at hc'; subst hc'; rfl)
  obtain ⟨-, -, h3, h4⟩ := rest_cons e2
  obtain ⟨d', e3, t3, e4⟩ := parseIdent_complete h3
  refine ⟨d', t1.trans (h4.cons t3), e4, ?_⟩
  rw [eventR_at e1 e2]
  simp [isDigit, e3]

end De
end Miniserde
