import Verif.Model.LexCost
import Verif.Proof.NumCost
import Verif.Proof.StrLoop

/-!
# Erasing the step counter
-/

namespace Miniserde
namespace De

/-- The body of the loop of `parse_str` after the scan, with counter. -/
def strStepC (d1 : De) (start : Nat) : Tk (Bytes × De) :=
  match d1.input[d1.pos]? with
  | none => .ret .err
  | some c =>
    if c = b('"') then
      if d1.buffer.isEmpty then (Tk.ret (d1.slice start d1.pos)).bind fun borrowed => .ret (.ok (borrowed, d1.bump))
      else (Tk.ret (d1.slice start d1.pos)).bind fun tail => .tick tail.length (.ret (.ok ((d1.extend tail).buffer, (d1.extend tail).bump)))
    else if c = b('\\') then
      (Tk.ret (d1.slice start d1.pos)).bind fun chunk => .tick chunk.length <|
        (d1.extend chunk).bump.parseEscapeC.bind fun d3 => parseStrLoopC d3 d3.pos
    else .ret .err

theorem parseStrLoopC_eq (d : De) (start : Nat) : parseStrLoopC d start = .tick d.skipPlainC.2 (strStepC d.skipPlainC.1 start) := by
  rw [parseStrLoopC]
  refine congrArg _ ?_
  generalize d.skipPlainC.1 = d1
  unfold strStepC
  split
  · rename_i h; rw [h]
  · rename_i c h
    rw [h]
    simp only
    split
    · rfl
    split
    · cases d1.slice start d1.pos with
      | ok chunk =>
        simp only [Tk.bind, Tk.ret, Tk.tick]
        split <;> rename_i h2 <;> simp [h2] <;> omega
      | err => rfl
      | panic => rfl
    · rfl

theorem parseStrLoopC_fst (d : De) (start : Nat) : (parseStrLoopC d start).1 = parseStrLoop d start := by
  rw [parseStrLoopC_eq, parseStrLoop_eq, Tk.tick_fst, skipPlainC_fst]
  have a1 := skipPlain_adv d
  generalize d.skipPlain = d1 at a1 ⊢
  unfold strStepC strStep
  rw [← getElem?_pos d1]
  cases hc : d1.input[d1.pos]? with
  | none => rfl
  | some c =>
    have a3 := (List.getElem?_eq_some_iff.1 hc).1
    simp only
    split
    · split
      · simp only [Tk.bind_fst, Tk.ret_fst]
      · simp only [Tk.bind_fst, Tk.ret_fst, Tk.tick_fst]
    split
    · simp only [Tk.bind_fst, Tk.ret_fst, Tk.tick_fst, parseEscapeC_fst]
      refine Tk.bind_congr _ fun chunk => ?_
      cases he : (d1.extend chunk).bump.parseEscape with
      | ok d3 =>
        have a2 := parseEscape_adv he
        simp only [bump, extend] at a2
        have hlt : d3.input.length - d3.pos < d.input.length - d.pos := by rw [a2.1, a1.1]; rw [a1.1] at a3; omega
        exact parseStrLoopC_fst d3 d3.pos
      | err => rfl
      | panic => rfl
    · rfl
termination_by d.input.length - d.pos

theorem parseWhitespaceC_fst (d : De) : d.parseWhitespaceC.1 = d.parseWhitespace := by
  fun_induction parseWhitespace d with
  | case1 d c h hc => rw [parseWhitespaceC]; split <;> simp_all
  | case2 d c h hc => rw [parseWhitespaceC]; split <;> simp_all
  | case3 d h => rw [parseWhitespaceC]; split <;> simp_all

theorem parseIdentC_fst (d : De) (es : Bytes) : (parseIdentC d es).1 = parseIdent d es := by
  induction es generalizing d with
  | nil => rfl
  | cons e es ih =>
    simp only [parseIdentC, parseIdent, Tk.tick_fst]
    rcases d.next with ⟨_ | n, d'⟩
    · rfl
    · simp only
      split
      · rfl
      · exact ih _

theorem f64LoopC_fst (f : F64) (E : Int) : (f64LoopC f E).1 = f64Loop f E := by
  rw [f64LoopC, f64Loop]
  simp only [Tk.tick_fst]
  cases POW10 E.natAbs with
  | some pow =>
    simp only
    split
    · split <;> rfl
    · rfl
  | none =>
    simp only
    split
    · rfl
    split
    · rfl
    split
    · exact f64LoopC_fst ..
    · rfl
termination_by E.natAbs
decreasing_by omega

theorem f64FromPartsC_fst (nonneg : Bool) (n : Nat) (E : Int) : (f64FromPartsC nonneg n E).1 = f64FromParts nonneg n E := by
  simp only [f64FromPartsC, f64FromParts, Tk.bind_fst, f64LoopC_fst, Tk.ret_fst]

theorem skipDigitsC_fst (d : De) : d.skipDigitsC.1 = d.skipDigits := by
  fun_induction skipDigits d with
  | case1 d h ih => rw [skipDigitsC, dif_pos h]; exact ih
  | case2 d h => rw [skipDigitsC, dif_neg h]

theorem parseExponentOverflowC_fst (d : De) (nonneg : Bool) (n : Nat) (p : Bool) : (parseExponentOverflowC d nonneg n p).1 = parseExponentOverflow d nonneg n p := by
  unfold parseExponentOverflowC parseExponentOverflow
  split
  · rfl
  · simp only [Tk.tick_fst, Tk.ret_fst, skipDigitsC_fst]

theorem exponentLoopC_fst (nonneg : Bool) (n : Nat) (E : Int) (p : Bool) (d : De) (exp : Nat) :
    (exponentLoopC nonneg n E p d exp).1 = exponentLoop nonneg n E p d exp := by
  rw [exponentLoopC, exponentLoop]
  simp only [Tk.tick_fst]
  split
  · rename_i h
    have := peekOrNul_digit_lt h
    split
    · exact parseExponentOverflowC_fst ..
    split
    · exact exponentLoopC_fst ..
    · rfl
  · simp only [Tk.bind_fst, f64FromPartsC_fst, Tk.ret_fst]
termination_by d.input.length - d.pos
decreasing_by simp only [bump]; omega

theorem parseExponentC_fst (d : De) (nonneg : Bool) (n : Nat) (E : Int) : (parseExponentC d nonneg n E).1 = parseExponent d nonneg n E := by
  unfold parseExponentC parseExponent
  simp only [Tk.tick_fst]
  generalize (if d.bump.peekOrNul = b('+') then (true, d.bump.bump) else if d.bump.peekOrNul = b('-') then (false, d.bump.bump) else (true, d.bump)) = q
  split
  · exact exponentLoopC_fst ..
  · rfl

theorem decimalLoopC_fst (d : De) (a : Bool) (n : Nat) (E : Int) : (decimalLoopC d a n E).1 = decimalLoop d a n E := by
  rw [decimalLoopC, decimalLoop]
  simp only [Tk.tick_fst]
  split
  · rename_i h
    have := peekOrNul_digit_lt h
    split
    · simp only [Tk.tick_fst, Tk.ret_fst, skipDigitsC_fst]
    · cases u64 (n * 10 + digitVal d.peekOrNul) with
      | ok s =>
        cases i32 (E - 1) with
        | ok e => exact decimalLoopC_fst ..
        | err => rfl
        | panic => rfl
      | err => rfl
      | panic => rfl
  · rfl
termination_by d.input.length - d.pos
decreasing_by simp only [bump]; omega

theorem parseDecimalC_fst (d : De) (nonneg : Bool) (n : Nat) (E : Int) : (parseDecimalC d nonneg n E).1 = parseDecimal d nonneg n E := by
  unfold parseDecimalC parseDecimal
  simp only [Tk.bind_fst, decimalLoopC_fst]
  refine Tk.bind_congr _ fun r => ?_
  simp only [Tk.tick_fst]
  split
  · rfl
  split
  · exact parseExponentC_fst ..
  · simp only [Tk.bind_fst, f64FromPartsC_fst, Tk.ret_fst]

theorem parseLongIntegerC_fst (d : De) (nonneg : Bool) (n : Nat) (E : Int) : (parseLongIntegerC d nonneg n E).1 = parseLongInteger d nonneg n E := by
  rw [parseLongIntegerC, parseLongInteger]
  simp only [Tk.tick_fst]
  split
  · rename_i h
    have := peekOrNul_digit_lt h
    cases i32 (E + 1) with
    | ok e => exact parseLongIntegerC_fst ..
    | err => rfl
    | panic => rfl
  split
  · exact parseDecimalC_fst ..
  split
  · exact parseExponentC_fst ..
  · simp only [Tk.bind_fst, f64FromPartsC_fst, Tk.ret_fst]
termination_by d.input.length - d.pos
decreasing_by simp only [bump]; omega

theorem mapFloatC_fst (r : Tk (F64 × De)) : (mapFloatC r).1 = mapFloat r.1 := rfl

theorem parseNumberC_fst (d : De) (nonneg : Bool) (n : Nat) : (parseNumberC d nonneg n).1 = parseNumber d nonneg n := by
  unfold parseNumberC parseNumber
  simp only [Tk.tick_fst]
  split
  · simp only [mapFloatC_fst, parseDecimalC_fst]
  split
  · simp only [mapFloatC_fst, parseExponentC_fst]
  split
  · rfl
  · split <;> rfl

theorem integerLoopC_fst (d : De) (nonneg : Bool) (n : Nat) : (integerLoopC d nonneg n).1 = integerLoop d nonneg n := by
  rw [integerLoopC, integerLoop]
  simp only [Tk.tick_fst]
  split
  · rename_i h
    have := peekOrNul_digit_lt h
    split
    · simp only [mapFloatC_fst, parseLongIntegerC_fst]
    · cases u64 (n * 10 + digitVal d.peekOrNul) with
      | ok e => exact integerLoopC_fst ..
      | err => rfl
      | panic => rfl
  · exact parseNumberC_fst ..
termination_by d.input.length - d.pos
decreasing_by simp only [bump]; omega

theorem parseIntegerC_fst (d : De) (nonneg : Bool) (c : UInt8) : (parseIntegerC d nonneg c).1 = parseInteger d nonneg c := by
  unfold parseIntegerC parseInteger
  split
  · simp only [Tk.tick_fst]
    split
    · rfl
    · exact parseNumberC_fst ..
  split
  · exact integerLoopC_fst ..
  · rfl

theorem eventC_fst (d : De) : d.eventC.1 = d.event := by
  unfold eventC event
  simp only [Tk.tick_fst, parseWhitespaceC_fst]
  rcases d.parseWhitespace with ⟨_ | c, d⟩
  · rfl
  simp only
  split
  · simp only [Tk.map_fst, parseStrC, parseStr, parseStrLoopC_fst]
  split
  · exact parseIntegerC_fst ..
  split
  · simp only [Tk.tick_fst, parseIntegerC_fst]
  split
  · rfl
  split
  · rfl
  iterate 3 (split; · simp only [Tk.map_fst, parseIdentC_fst])
  rfl

end De

variable {σ : Type} (P : Proto σ)

theorem TkW.tick_fst {α : Type} (n : Nat) (x : TkW σ α) : (TkW.tick n x).1 = x.1 := rfl
theorem TkW.ret_fst {α : Type} (x : Res α × σ) : (TkW.ret x).1 = x := rfl

theorem closeLoopC_fst (d : De) (a : Bool) (v : P.V) (l : Layer P) (st : List (Frame P)) (w : σ) : (closeLoopC P d a v l st w).1 = closeLoop P d a v l st w := by
  induction st generalizing d a v l w with
  | nil =>
    rw [closeLoopC, closeLoop]
    simp only [TkW.tick_fst, De.parseWhitespaceC_fst]
    split
    · rfl
    split
    · rcases finishLayer P (d.parseWhitespace.1.getD 0) l w with ⟨_ | _ | _, w'⟩ <;> rfl
    split <;> rfl
  | cons f st ih =>
    rw [closeLoopC, closeLoop]
    simp only [TkW.tick_fst, De.parseWhitespaceC_fst]
    split
    · rfl
    split
    · rcases finishLayer P (d.parseWhitespace.1.getD 0) l w with ⟨_ | _ | _, w'⟩
      · exact ih ..
      · rfl
      · rfl
    split <;> rfl

theorem openChildC_fst (d : De) (v : P.V) (l : Layer P) (st : List (Frame P)) (w : σ) : (openChildC P d v l st w).1 = openChild P d v l st w := by
  unfold openChildC openChild
  cases l with
  | seq q =>
    simp only
    rcases P.element q w with ⟨_ | _ | _, w'⟩ <;> rfl
  | map m =>
    simp only [TkW.tick_fst, De.parseWhitespaceC_fst]
    split
    · simp only [TkW.tick_fst, De.parseStrC, De.parseStr, De.parseStrLoopC_fst]
      generalize De.parseStrLoop _ _ = r
      rcases r with ⟨k, d'⟩ | _ | _
      · simp only [TkW.tick_fst]
        rcases P.key m k w with ⟨_ | _ | _, w'⟩
        · simp only [TkW.tick_fst]
          split <;> rfl
        · rfl
        · rfl
      · rfl
      · rfl
    · rfl

theorem outerLoopC_fst (fuel : Nat) (d : De) (v : P.V) (st : List (Frame P)) (w : σ) : (outerLoopC P fuel d v st w).map (·.1) = outerLoop P fuel d v st w := by
  have hmap : ∀ (n : Nat) (o : Option (TkW σ Unit)), (o.map (TkW.tick n)).map (·.1) = o.map (·.1) := by intro n o; cases o <;> rfl
  induction fuel generalizing d v st w with
  | zero => rfl
  | succ fuel ih =>
    rw [outerLoopC, outerLoop, hmap, De.eventC_fst]
    rcases d.event with ⟨ev, d'⟩ | _ | _
    · simp only [hmap]
      rcases visitEvent P v ev w with ⟨l? | _ | _, w'⟩
      · simp only [hmap]
        cases l? with
        | some l =>
          simp only [closeLoopC_fst]
          generalize closeLoop P d' false v l st w' = nx
          rcases nx with ⟨(⟨d2, v2, l2, st2⟩ | d2) | _ | _, w2⟩
          · simp only [hmap, openChildC_fst]
            rcases openChild P d2 v2 l2 st2 w2 with ⟨⟨d3, v3, st3⟩ | _ | _, w3⟩
            · exact ih ..
            · rfl
            · rfl
          · rfl
          · rfl
          · rfl
        | none =>
          cases st with
          | nil => rfl
          | cons f st =>
            simp only [TkW.tick_fst, closeLoopC_fst]
            generalize closeLoop P d' true f.1 f.2 st w' = nx
            rcases nx with ⟨(⟨d2, v2, l2, st2⟩ | d2) | _ | _, w2⟩
            · simp only [hmap, openChildC_fst]
              rcases openChild P d2 v2 l2 st2 w2 with ⟨⟨d3, v3, st3⟩ | _ | _, w3⟩
              · exact ih ..
              · rfl
              · rfl
            · rfl
            · rfl
            · rfl
      · rfl
      · rfl
    · rfl
    · rfl

theorem fromStrImplC_fst (s : Bytes) (v : P.V) (w : σ) : (fromStrImplC P s v w).map (·.1) = fromStrImpl P s v w := outerLoopC_fst P ..

end Miniserde
