import Verif.Model.Driver

/-!
# The tokenizer and the driver with a step counter

The same functions as in `Model/Lexer.lean` and `Model/Driver.lean`, returning in addition the number of elementary steps they perform.  Counted are: every access
`self.input[self.pos]` (whether or not it is in range), every byte copied into the scratch buffer, every iteration of the loop of `f64_from_parts`, every call of a method of
`Visitor`, `Seq` or `Map`, every frame pushed on or popped off the stack and every box dropped.  Between two counted steps the Rust code does a fixed amount of work, except inside the
implementation of the visitor, which belongs to the caller, and for the reallocations of the two vectors `buffer` and `stack`, which are amortized by the pushes.
The theorems `..C_fst` in `Proof/LexCost.lean` say that the results are those of the functions without counter.
-/

namespace Miniserde

/-- A computation with its number of steps. Of `src/json/de.rs:205-657`. -/
abbrev Tk (α : Type) := Res α × Nat

namespace Tk

/-- `n` more steps. For the loops of `src/json/de.rs:205-657`. -/
def tick {α : Type} (n : Nat) (x : Tk α) : Tk α := (x.1, x.2 + n)

/-- No steps. `src/json/de.rs:205-657`. -/
def ret {α : Type} (x : Res α) : Tk α := (x, 0)

/-- Rust's `?`. As `Res.bind`, `src/json/de.rs:35,72`. -/
def bind {α β : Type} (x : Tk α) (f : α → Tk β) : Tk β :=
  match x.1 with
  | .ok a => ((f a).1, x.2 + (f a).2)
  | .err => (.err, x.2)
  | .panic => (.panic, x.2)

/-- `Result::map`. `src/json/de.rs:428,472-473,604`. -/
def map {α β : Type} (f : α → β) (x : Tk α) : Tk β := (x.1.map f, x.2)

theorem tick_fst {α : Type} (n : Nat) (x : Tk α) : (tick n x).1 = x.1 := rfl
theorem ret_fst {α : Type} (x : Res α) : (ret x).1 = x := rfl
theorem bind_fst {α β : Type} (x : Tk α) (f : α → Tk β) : (bind x f).1 = x.1.bind fun a => (f a).1 := by
  unfold bind Res.bind; split <;> rename_i h <;> simp [h]
theorem bind_congr {α β : Type} (x : Res α) {f g : α → Res β} (h : ∀ a, f a = g a) : x.bind f = x.bind g := by
  rw [funext h]
theorem map_fst {α β : Type} (f : α → β) (x : Tk α) : (map f x).1 = x.1.map f := rfl

end Tk

namespace De

/-- `src/json/de.rs:282-284` `fn next_or_eof`: one access. -/
def nextOrEofC (d : De) : Tk (UInt8 × De) := .tick 1 (.ret d.nextOrEof)

/-- `src/json/de.rs:354-367`. -/
def hexLoopC : Nat → De → Nat → Tk (Nat × De)
  | 0, d, n => .ret (.ok (n, d))
  | k + 1, d, n => d.nextOrEofC.bind fun (r : UInt8 × De) =>
    match hexVal r.1 with
    | some v => (Tk.ret (u16 (n * 16 + v))).bind fun n => hexLoopC k r.2 n
    | none => .ret .err

/-- `src/json/de.rs:301-339`. -/
def unicodeEscapeC (d : De) : Tk (Nat × De) :=
  (hexLoopC 4 d 0).bind fun (n1 : Nat × De) =>
  if isLowSurrogate n1.1 then .ret .err
  else if isHighSurrogate n1.1 then
    n1.2.nextOrEofC.bind fun (c1 : UInt8 × De) =>
    if c1.1 ≠ b('\\') then .ret .err
    else
      c1.2.nextOrEofC.bind fun (c2 : UInt8 × De) =>
      if c2.1 ≠ b('u') then .ret .err
      else
        (hexLoopC 4 c2.2 0).bind fun (n2 : Nat × De) =>
        if !isLowSurrogate n2.1 then .ret .err
        else
          (Tk.ret (subU16 n1.1 0xD800)).bind fun hi =>
          (Tk.ret (subU16 n2.1 0xDC00)).bind fun lo =>
          match charFromU32 (surrogatePair hi lo) with
          | some c => .ret (.ok (c, n2.2))
          | none => .ret .err
  else
    match charFromU32 n1.1 with
    | some c => .ret (.ok (c, n1.2))
    | none => .ret .err

/-- `src/json/de.rs:288-350` `fn parse_escape`: copying is counted by the byte. -/
def parseEscapeC (d : De) : Tk De :=
  d.nextOrEofC.bind fun (r : UInt8 × De) =>
  if r.1 = b('"') then .tick 1 (.ret (.ok (r.2.push b('"'))))
  else if r.1 = b('\\') then .tick 1 (.ret (.ok (r.2.push b('\\'))))
  else if r.1 = b('/') then .tick 1 (.ret (.ok (r.2.push b('/'))))
  else if r.1 = b('b') then .tick 1 (.ret (.ok (r.2.push 0x08)))
  else if r.1 = b('f') then .tick 1 (.ret (.ok (r.2.push 0x0c)))
  else if r.1 = b('n') then .tick 1 (.ret (.ok (r.2.push b('\n'))))
  else if r.1 = b('r') then .tick 1 (.ret (.ok (r.2.push b('\r'))))
  else if r.1 = b('t') then .tick 1 (.ret (.ok (r.2.push b('\t'))))
  else if r.1 = b('u') then r.2.unicodeEscapeC.bind fun (u : Nat × De) => .tick (encodeUtf8 u.1).length (.ret (.ok (u.2.extend (encodeUtf8 u.1))))
  else .ret .err

/-- `src/json/de.rs:249-251`: one access per iteration, and the one that ends the loop. -/
def skipPlainC (d : De) : De × Nat :=
  match _h : d.input[d.pos]? with
  | some c => if mustEscape c then (d, 1) else ((skipPlainC d.bump).1, (skipPlainC d.bump).2 + 1)
  | none => (d, 1)
termination_by d.input.length - d.pos
decreasing_by
  all_goals
    have := (List.getElem?_eq_some_iff.1 _h).1
    simp only [bump]; omega

theorem skipPlainC_fst (d : De) : d.skipPlainC.1 = d.skipPlain := by
  fun_induction skipPlain d with
  | case1 d c h hc => rw [skipPlainC]; split <;> simp_all
  | case2 d c h hc ih => rw [skipPlainC]; split <;> simp_all
  | case3 d h => rw [skipPlainC]; split <;> simp_all

theorem hexLoopC_fst (k : Nat) (d : De) (n : Nat) : (hexLoopC k d n).1 = hexLoop k d n := by
  induction k generalizing d n with
  | zero => rfl
  | succ k ih =>
    simp only [hexLoopC, hexLoop, Tk.bind_fst, nextOrEofC, Tk.tick_fst, Tk.ret_fst]
    refine Tk.bind_congr _ fun r => ?_
    cases hexVal r.1 with
    | some v => simp only [Tk.bind_fst, Tk.ret_fst, ih]
    | none => rfl

theorem unicodeEscapeC_fst (d : De) : d.unicodeEscapeC.1 = d.unicodeEscape := by
  simp only [unicodeEscapeC, unicodeEscape, decodeHexEscape, Tk.bind_fst, hexLoopC_fst]
  refine Tk.bind_congr _ fun n1 => ?_
  split
  · rfl
  split
  · simp only [Tk.bind_fst, nextOrEofC, Tk.tick_fst, Tk.ret_fst]
    refine Tk.bind_congr _ fun c1 => ?_
    split
    · rfl
    simp only [Tk.bind_fst, Tk.tick_fst, Tk.ret_fst]
    refine Tk.bind_congr _ fun c2 => ?_
    split
    · rfl
    simp only [Tk.bind_fst, hexLoopC_fst]
    refine Tk.bind_congr _ fun n2 => ?_
    split
    · rfl
    simp only [Tk.bind_fst, Tk.ret_fst]
    refine Tk.bind_congr _ fun hi => Tk.bind_congr _ fun lo => ?_
    cases charFromU32 (surrogatePair hi lo) <;> rfl
  · cases charFromU32 n1.1 <;> rfl

theorem parseEscapeC_fst (d : De) : d.parseEscapeC.1 = d.parseEscape := by
  simp only [parseEscapeC, parseEscape, Tk.bind_fst, nextOrEofC, Tk.tick_fst, Tk.ret_fst]
  refine Tk.bind_congr _ fun r => ?_
  iterate 8 (split; · rfl)
  split
  · simp only [Tk.bind_fst, unicodeEscapeC_fst]; rfl
  · rfl

/-- `src/json/de.rs:248-279`: the `loop` of `parse_str`; the bytes between two escapes are copied, at the end also the rest, unless there was no escape. -/
def parseStrLoopC (d : De) (start : Nat) : Tk (Bytes × De) :=
  let d1 := d.skipPlainC.1
  Tk.tick d.skipPlainC.2 <|
  match _hc : d1.input[d1.pos]? with
  | none => .ret .err
  | some c =>
    if c = b('"') then
      if d1.buffer.isEmpty then
        (Tk.ret (d1.slice start d1.pos)).bind fun borrowed => .ret (.ok (borrowed, d1.bump))
      else
        (Tk.ret (d1.slice start d1.pos)).bind fun tail => .tick tail.length (.ret (.ok ((d1.extend tail).buffer, (d1.extend tail).bump)))
    else if c = b('\\') then
      match d1.slice start d1.pos with
      | .ok chunk =>
        let d2 := (d1.extend chunk).bump
        Tk.tick (chunk.length + d2.parseEscapeC.2) <|
        match _he : d2.parseEscapeC.1 with
        | .ok d3 => parseStrLoopC d3 d3.pos
        | .err => .ret .err
        | .panic => .ret .panic
      | .err => .ret .err
      | .panic => .ret .panic
    else .ret .err
termination_by d.input.length - d.pos
decreasing_by
  rw [parseEscapeC_fst] at _he
  have a1 := skipPlain_adv d
  have a2 := parseEscape_adv _he
  have a3 := (List.getElem?_eq_some_iff.1 _hc).1
  simp only [d2, d1, skipPlainC_fst, bump, extend] at a2
  simp only [d1, skipPlainC_fst] at a2 a3 ⊢
  rw [a1.1] at a2 a3
  rw [a2.1]
  omega

/-- `src/json/de.rs:236-280` `fn parse_str`. -/
def parseStrC (d : De) : Tk (Bytes × De) := parseStrLoopC { d with buffer := [] } d.pos

/-- `src/json/de.rs:371-382` `fn parse_whitespace`. -/
def parseWhitespaceC (d : De) : (Option UInt8 × De) × Nat :=
  match _h : d.input[d.pos]? with
  | some c => if isWs c then ((parseWhitespaceC d.bump).1, (parseWhitespaceC d.bump).2 + 1) else ((some c, d), 1)
  | none => ((none, d), 1)
termination_by d.input.length - d.pos
decreasing_by
  all_goals
    have := (List.getElem?_eq_some_iff.1 _h).1
    simp only [bump]; omega

/-- `src/json/de.rs:384-398` `fn parse_ident`. -/
def parseIdentC : De → Bytes → Tk De
  | d, [] => .ret (.ok d)
  | d, e :: es => .tick 1 <|
    match d.next with
    | (none, _) => .ret .err
    | (some n, d) => if n ≠ e then .ret .err else parseIdentC d es

/-- `src/json/de.rs:631-655`: the loop of `f64_from_parts`, one step per iteration. -/
def f64LoopC (f : F64) (exponent : Int) : Tk F64 :=
  Tk.tick 1 <|
  match POW10 exponent.natAbs with
  | some pow =>
    if exponent ≥ 0 then
      let f := Flt.mul binary64 f pow
      if f.isInfinite then .ret .err else .ret (.ok f)
    else .ret (.ok (Flt.div binary64 f pow))
  | none =>
    if f.isZero then .ret (.ok f)
    else if _h : exponent ≥ 0 then .ret .err
    else if _h2 : exponent + 308 < 0 then
      f64LoopC (Flt.div binary64 f (Flt.pow10Lit 308)) (exponent + 308)
    else .ret .panic
termination_by exponent.natAbs
decreasing_by omega

/-- `src/json/de.rs:629-657` `fn f64_from_parts`. -/
def f64FromPartsC (nonneg : Bool) (significand : Nat) (exponent : Int) : Tk F64 :=
  (f64LoopC (Flt.ofNat binary64 significand) exponent).bind fun f => .ret (.ok (if nonneg then f else f.neg))

/-- `src/json/de.rs:508-510`, `591-593`. -/
def skipDigitsC (d : De) : De × Nat :=
  if _h : isDigit d.peekOrNul = true then ((skipDigitsC d.bump).1, (skipDigitsC d.bump).2 + 1) else (d, 1)
termination_by d.input.length - d.pos
decreasing_by
  all_goals
    have := peekOrNul_digit_lt _h
    simp only [bump]; omega

/-- `src/json/de.rs:580-595` `fn parse_exponent_overflow`. -/
def parseExponentOverflowC (d : De) (nonneg : Bool) (significand : Nat) (positiveExp : Bool) : Tk (F64 × De) :=
  if significand ≠ 0 ∧ positiveExp = true then .ret .err
  else .tick d.skipDigitsC.2 (.ret (.ok (.fin (!nonneg) 0 binary64.emin, d.skipDigitsC.1)))

/-- `src/json/de.rs:556-573`. -/
def exponentLoopC (nonneg : Bool) (significand : Nat) (startingExp : Int) (positiveExp : Bool)
    (d : De) (exp : Nat) : Tk (F64 × De) :=
  Tk.tick 1 <|
  if _h : isDigit d.peekOrNul = true then
    let digit := digitVal d.peekOrNul
    let d1 := d.bump
    if overflows exp digit 2147483647 then d1.parseExponentOverflowC nonneg significand positiveExp
    else if (exp : Int) * 10 + digit ≤ I32_MAX then
      exponentLoopC nonneg significand startingExp positiveExp d1 (exp * 10 + digit)
    else .ret .panic
  else
    let finalExp := if positiveExp then satI32 (startingExp + exp) else satI32 (startingExp - exp)
    (f64FromPartsC nonneg significand finalExp).bind fun f => .ret (.ok (f, d))
termination_by d.input.length - d.pos
decreasing_by
  have := peekOrNul_digit_lt _h
  simp only [bump]; omega

/-- `src/json/de.rs:528-574` `fn parse_exponent`: the sign is peeked at, the first digit read. -/
def parseExponentC (d : De) (nonneg : Bool) (significand : Nat) (startingExp : Int) : Tk (F64 × De) :=
  let d := d.bump
  let (positiveExp, d) :=
    if d.peekOrNul = b('+') then (true, d.bump)
    else if d.peekOrNul = b('-') then (false, d.bump)
    else (true, d)
  let (c, d) := d.nextOrNul
  Tk.tick 2 <|
  if isDigit c then exponentLoopC nonneg significand startingExp positiveExp d (digitVal c)
  else .ret .err

/-- `src/json/de.rs:500-516`. -/
def decimalLoopC (d : De) (atLeastOne : Bool) (significand : Nat) (exponent : Int) :
    Tk ((Bool × Nat × Int) × De) :=
  Tk.tick 1 <|
  if _h : isDigit d.peekOrNul = true then
    let digit := digitVal d.peekOrNul
    let d1 := d.bump
    if overflows significand digit U64_MAX then .tick d1.skipDigitsC.2 (.ret (.ok ((true, significand, exponent), d1.skipDigitsC.1)))
    else
      match u64 (significand * 10 + digit), i32 (exponent - 1) with
      | .ok s, .ok e => decimalLoopC d1 true s e
      | _, _ => .ret .panic
  else .ret (.ok ((atLeastOne, significand, exponent), d))
termination_by d.input.length - d.pos
decreasing_by
  have := peekOrNul_digit_lt _h
  simp only [bump]; omega

/-- `src/json/de.rs:491-526` `fn parse_decimal`. -/
def parseDecimalC (d : De) (nonneg : Bool) (significand : Nat) (exponent : Int) : Tk (F64 × De) :=
  (decimalLoopC d.bump false significand exponent).bind fun (r : (Bool × Nat × Int) × De) =>
  Tk.tick 1 <|
  if !r.1.1 then .ret .err
  else if r.2.peekOrNul = b('e') ∨ r.2.peekOrNul = b('E') then r.2.parseExponentC nonneg r.1.2.1 r.1.2.2
  else (f64FromPartsC nonneg r.1.2.1 r.1.2.2).bind fun f => .ret (.ok (f, r.2))

/-- `src/json/de.rs:443-468` `fn parse_long_integer`. -/
def parseLongIntegerC (d : De) (nonneg : Bool) (significand : Nat) (exponent : Int) : Tk (F64 × De) :=
  Tk.tick 1 <|
  if _h : isDigit d.peekOrNul = true then
    match i32 (exponent + 1) with
    | .ok e => parseLongIntegerC d.bump nonneg significand e
    | _ => .ret .panic
  else if d.peekOrNul = b('.') then d.parseDecimalC nonneg significand exponent
  else if d.peekOrNul = b('e') ∨ d.peekOrNul = b('E') then d.parseExponentC nonneg significand exponent
  else (f64FromPartsC nonneg significand exponent).bind fun f => .ret (.ok (f, d))
termination_by d.input.length - d.pos
decreasing_by
  have := peekOrNul_digit_lt _h
  simp only [bump]; omega

/-- `.map(Float)`. `src/json/de.rs:428,472-473`. -/
def mapFloatC (r : Tk (F64 × De)) : Tk (Event × De) := r.map fun p => (.float p.1, p.2)

/-- `src/json/de.rs:470-489` `fn parse_number`. -/
def parseNumberC (d : De) (nonneg : Bool) (significand : Nat) : Tk (Event × De) :=
  Tk.tick 1 <|
  if d.peekOrNul = b('.') then mapFloatC (d.parseDecimalC nonneg significand 0)
  else if d.peekOrNul = b('e') ∨ d.peekOrNul = b('E') then mapFloatC (d.parseExponentC nonneg significand 0)
  else if nonneg then .ret (.ok (.nonnegative significand, d))
  else
    let neg := wrappingNegI64 (asI64 significand)
    if neg > 0 then .ret (.ok (.float (Flt.ofNat binary64 significand).neg, d))
    else .ret (.ok (.negative neg, d))

/-- `src/json/de.rs:412-437`. -/
def integerLoopC (d : De) (nonneg : Bool) (res : Nat) : Tk (Event × De) :=
  Tk.tick 1 <|
  if _h : isDigit d.peekOrNul = true then
    let digit := digitVal d.peekOrNul
    let d1 := d.bump
    if overflows res digit U64_MAX then mapFloatC (d1.parseLongIntegerC nonneg res 1)
    else
      match u64 (res * 10 + digit) with
      | .ok r => integerLoopC d1 nonneg r
      | _ => .ret .panic
  else d.parseNumberC nonneg res
termination_by d.input.length - d.pos
decreasing_by
  have := peekOrNul_digit_lt _h
  simp only [bump]; omega

/-- `src/json/de.rs:400-441` `fn parse_integer`. -/
def parseIntegerC (d : De) (nonneg : Bool) (firstDigit : UInt8) : Tk (Event × De) :=
  if firstDigit = b('0') then
    Tk.tick 1 <| if isDigit d.peekOrNul then .ret .err else d.parseNumberC nonneg 0
  else if isDigit firstDigit then integerLoopC d nonneg (digitVal firstDigit)
  else .ret .err

/-- `src/json/de.rs:597-626` `fn event`. -/
def eventC (d : De) : Tk (Event × De) :=
  Tk.tick d.parseWhitespaceC.2 <|
  match d.parseWhitespaceC.1 with
  | (none, _) => .ret .err
  | (some c, d) =>
    let d := d.bump
    if c = b('"') then d.parseStrC.map fun p => (.str p.1, p.2)
    else if isDigit c then d.parseIntegerC true c
    else if c = b('-') then
      let (firstDigit, d) := d.nextOrNul
      .tick 1 (d.parseIntegerC false firstDigit)
    else if c = b('{') then .ret (.ok (.mapStart, d))
    else if c = b('[') then .ret (.ok (.seqStart, d))
    else if c = b('n') then (d.parseIdentC (str! "ull")).map fun d => (.null, d)
    else if c = b('t') then (d.parseIdentC (str! "rue")).map fun d => (.bool true, d)
    else if c = b('f') then (d.parseIdentC (str! "alse")).map fun d => (.bool false, d)
    else .ret .err

end De

section
variable {σ : Type} (P : Proto σ)

/-- A computation with the visitor's world and the number of steps. Of `src/json/de.rs:60-184`. -/
abbrev TkW (σ α : Type) := (Res α × σ) × Nat

/-- `n` more steps. `src/json/de.rs:60-184`. -/
def TkW.tick {σ α : Type} (n : Nat) (x : TkW σ α) : TkW σ α := (x.1, x.2 + n)

/-- No steps. `src/json/de.rs:60-184`. -/
def TkW.ret {σ α : Type} (x : Res α × σ) : TkW σ α := (x, 0)

/-- `src/json/de.rs:123-152`: the inner loop.  One call of `finish`, one box dropped and one frame popped per closing bracket; when it fails,
the layer and every frame on the stack are dropped. -/
def closeLoopC (d : De) (acceptComma : Bool) (visitor : P.V) (layer : Layer P) (stack : List (Frame P))
    (w : σ) : TkW σ (LoopExit P) :=
  TkW.tick d.parseWhitespaceC.2 <|
  let (peek, d) := d.parseWhitespaceC.1
  let c := peek.getD 0
  if c = b(',') ∧ acceptComma = true then .ret (.ok (.child d.bump visitor layer stack), w)
  else if c = b(']') ∨ c = b('}') then
    let d := d.bump
    match finishLayer P c layer w with
    | (.ok _, w) =>
      match stack with
      | [] => .tick 2 (.ret (.ok (.done d), layer.drop w))
      | frame :: stack => .tick 3 (closeLoopC d true frame.1 frame.2 stack (layer.drop w))
    | (r, w) => .tick (2 + 2 * stack.length) (.ret (r.fail, dropStack stack (layer.drop w)))
  else if acceptComma then .tick (1 + 2 * stack.length) (.ret (.err, dropStack stack (layer.drop w)))
  else .ret (.ok (.child d visitor layer stack), w)

/-- `src/json/de.rs:154-177`: one call of `element` or `key`, one frame pushed. -/
def openChildC (d : De) (outer : P.V) (layer : Layer P) (stack : List (Frame P)) (w : σ) :
    TkW σ (De × P.V × List (Frame P)) :=
  match layer with
  | .seq q =>
    match P.element q w with
    | (.ok v, w) => .tick 2 (.ret (.ok (d, v, (outer, .seq q) :: stack), w))
    | (r, w) => .tick (2 + 2 * stack.length) (.ret (r.fail, dropStack stack (P.dropSeq q w)))
  | .map m =>
    TkW.tick d.parseWhitespaceC.2 <|
    let (peek, d) := d.parseWhitespaceC.1
    if peek = some b('"') then
      TkW.tick d.bump.parseStrC.2 <|
      match d.bump.parseStrC.1 with
      | .ok (k, d) =>
        TkW.tick 1 <|
        match P.key m k w with
        | (.ok v, w) =>
          TkW.tick d.parseWhitespaceC.2 <|
          let (peek, d) := d.parseWhitespaceC.1
          if peek = some b(':') then .tick 1 (.ret (.ok (d.bump, v, (outer, .map m) :: stack), w))
          else .tick (1 + 2 * stack.length) (.ret (.err, dropStack stack (P.dropMap m w)))
        | (r, w) => .tick (1 + 2 * stack.length) (.ret (r.fail, dropStack stack (P.dropMap m w)))
      | r => .tick (1 + 2 * stack.length) (.ret (r.fail, dropStack stack (P.dropMap m w)))
    else .tick (1 + 2 * stack.length) (.ret (.err, dropStack stack (P.dropMap m w)))

/-- `src/json/de.rs:70-183`: the `'outer` loop and the check after it. -/
def outerLoopC : Nat → De → P.V → List (Frame P) → σ → Option (TkW σ Unit)
  | 0, _, _, _, _ => none
  | fuel + 1, d, visitor, stack, w =>
    (match d.eventC.1 with
    | .ok (ev, d) =>
      (match visitEvent P visitor ev w with
      | (.ok layer?, w) =>
        let next : TkW σ (LoopExit P) :=
          match layer? with
          | some layer => closeLoopC P d false visitor layer stack w
          | none =>
            match stack with
            | frame :: stack => .tick 1 (closeLoopC P d true frame.1 frame.2 stack w)
            | [] => .ret (.ok (.done d), w)
        (match next.1 with
        | (.ok (.child d visitor layer stack), w) =>
          let child := openChildC P d visitor layer stack w
          (match child.1 with
          | (.ok (d, visitor, stack), w) => outerLoopC fuel d visitor stack w
          | (r, w) => some (.ret (r.fail, w))).map (TkW.tick child.2)
        | (.ok (.done d), w) => some (.tick d.parseWhitespaceC.2 (.ret (trailing d, w)))
        | (r, w) => some (.ret (r.fail, w))).map (TkW.tick next.2)
      | (r, w) => some (.tick (2 * stack.length) (.ret (r.fail, dropStack stack w)))).map (TkW.tick 1)
    | r => some (.tick (2 * stack.length) (.ret (r.fail, dropStack stack w)))).map (TkW.tick d.eventC.2)

/-- `src/json/de.rs:60-184` `fn from_str_impl`: the result, the world and the number of steps. -/
def fromStrImplC (j : Bytes) (visitor : P.V) (w : σ) : Option (TkW σ Unit) :=
  outerLoopC P (j.length + 1) { input := j, pos := 0, buffer := [] } visitor [] w

end

end Miniserde
