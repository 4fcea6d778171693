import Verif.Model.Visitors

/-!
# Release builds: integer overflow wraps

`Model/Lexer.lean` models a build with overflow checks (`debug`): integer overflow panics.  Without them (`cargo build --release`) it wraps.  This file has the parts of
`src/json/de.rs` where the difference could matter, for either kind of build; `Proof/Release.lean` proves that with checks it is the lexer of `Model/Lexer.lean`.

The other places with checked arithmetic in `Model/Lexer.lean` (`\u` escapes, surrogates, the digits of an exponent, `f64_from_parts`) are shared: there no overflow is
possible for any input, as the proofs about `Model/Lexer.lean` show (`De.event_spec`: a panic requires 2^31 unread bytes, and its proof gives one only for the counters below).
-/

namespace Miniserde

/-- What `a + b` does when it overflows. At `src/json/de.rs:431,455,514-515,564,652`. -/
structure Arith where
  /-- Value of a `u64` operation with the given mathematical result. -/
  u64 : Nat → Res Nat
  /-- Value of an `i32` operation with the given mathematical result. -/
  i32 : Int → Res Int

/-- Two's complement. At `src/json/de.rs:455,515,652`. -/
def wrapI32 (z : Int) : Int := (z + 2147483648) % 4294967296 - 2147483648

/-- With overflow checks. At `src/json/de.rs:431,455,514-515,564,652`. -/
def Arith.debug : Arith := ⟨Miniserde.u64, Miniserde.i32⟩

/-- Without overflow checks. At `src/json/de.rs:431,455,514-515,564,652`. -/
def Arith.release : Arith := ⟨fun n => .ok (n % 18446744073709551616), fun z => .ok (wrapI32 z)⟩

namespace De
variable (ar : Arith)

/-- `src/json/de.rs:500-516`, as `decimalLoop`. -/
def decimalLoopA (d : De) (atLeastOne : Bool) (significand : Nat) (exponent : Int) : Res ((Bool × Nat × Int) × De) :=
  if _h : isDigit d.peekOrNul = true then
    let digit := digitVal d.peekOrNul
    let d1 := d.bump
    if overflows significand digit U64_MAX then .ok ((true, significand, exponent), d1.skipDigits)
    else
      match ar.u64 (significand * 10 + digit), ar.i32 (exponent - 1) with
      | .ok s, .ok e => decimalLoopA d1 true s e
      | _, _ => .panic
  else .ok ((atLeastOne, significand, exponent), d)
termination_by d.input.length - d.pos
decreasing_by
  have := peekOrNul_digit_lt _h
  simp only [bump]; omega

/-- `src/json/de.rs:491-526` `fn parse_decimal`. -/
def parseDecimalA (d : De) (nonneg : Bool) (significand : Nat) (exponent : Int) : Res (F64 × De) :=
  (decimalLoopA ar d.bump false significand exponent).bind fun (r : (Bool × Nat × Int) × De) =>
  if !r.1.1 then .err
  else if r.2.peekOrNul = b('e') ∨ r.2.peekOrNul = b('E') then r.2.parseExponent nonneg r.1.2.1 r.1.2.2
  else (f64FromParts nonneg r.1.2.1 r.1.2.2).bind fun f => .ok (f, r.2)

/-- `src/json/de.rs:443-468` `fn parse_long_integer`. -/
def parseLongIntegerA (d : De) (nonneg : Bool) (significand : Nat) (exponent : Int) : Res (F64 × De) :=
  if _h : isDigit d.peekOrNul = true then
    match ar.i32 (exponent + 1) with
    | .ok e => parseLongIntegerA d.bump nonneg significand e
    | _ => .panic
  else if d.peekOrNul = b('.') then d.parseDecimalA ar nonneg significand exponent
  else if d.peekOrNul = b('e') ∨ d.peekOrNul = b('E') then d.parseExponent nonneg significand exponent
  else (f64FromParts nonneg significand exponent).bind fun f => .ok (f, d)
termination_by d.input.length - d.pos
decreasing_by
  have := peekOrNul_digit_lt _h
  simp only [bump]; omega

/-- `src/json/de.rs:470-489` `fn parse_number`. -/
def parseNumberA (d : De) (nonneg : Bool) (significand : Nat) : Res (Event × De) :=
  if d.peekOrNul = b('.') then mapFloat (d.parseDecimalA ar nonneg significand 0)
  else if d.peekOrNul = b('e') ∨ d.peekOrNul = b('E') then mapFloat (d.parseExponent nonneg significand 0)
  else if nonneg then .ok (.nonnegative significand, d)
  else
    let neg := wrappingNegI64 (asI64 significand)
    if neg > 0 then .ok (.float (Flt.ofNat binary64 significand).neg, d)
    else .ok (.negative neg, d)

/-- `src/json/de.rs:412-437`, as `integerLoop`. -/
def integerLoopA (d : De) (nonneg : Bool) (res : Nat) : Res (Event × De) :=
  if _h : isDigit d.peekOrNul = true then
    let digit := digitVal d.peekOrNul
    let d1 := d.bump
    if overflows res digit U64_MAX then mapFloat (d1.parseLongIntegerA ar nonneg res 1)
    else
      match ar.u64 (res * 10 + digit) with
      | .ok r => integerLoopA d1 nonneg r
      | _ => .panic
  else d.parseNumberA ar nonneg res
termination_by d.input.length - d.pos
decreasing_by
  have := peekOrNul_digit_lt _h
  simp only [bump]; omega

/-- `src/json/de.rs:400-441` `fn parse_integer`. -/
def parseIntegerA (d : De) (nonneg : Bool) (firstDigit : UInt8) : Res (Event × De) :=
  if firstDigit = b('0') then
    if isDigit d.peekOrNul then .err else d.parseNumberA ar nonneg 0
  else if isDigit firstDigit then integerLoopA ar d nonneg (digitVal firstDigit)
  else .err

/-- `src/json/de.rs:597-626` `fn event`. -/
def eventA (d : De) : Res (Event × De) :=
  match d.parseWhitespace with
  | (none, _) => .err
  | (some c, d) =>
    let d := d.bump
    if c = b('"') then d.parseStr.map fun p => (.str p.1, p.2)
    else if isDigit c then d.parseIntegerA ar true c
    else if c = b('-') then
      let (firstDigit, d) := d.nextOrNul
      d.parseIntegerA ar false firstDigit
    else if c = b('{') then .ok (.mapStart, d)
    else if c = b('[') then .ok (.seqStart, d)
    else if c = b('n') then (d.parseIdent (str! "ull")).map fun d => (.null, d)
    else if c = b('t') then (d.parseIdent (str! "rue")).map fun d => (.bool true, d)
    else if c = b('f') then (d.parseIdent (str! "alse")).map fun d => (.bool false, d)
    else .err

end De

section
variable {σ : Type} (P : Proto σ) (ar : Arith)

/-- `src/json/de.rs:70-183`, as `outerLoop`. -/
def outerLoopA : Nat → De → P.V → List (Frame P) → σ → Option (Res Unit × σ)
  | 0, _, _, _, _ => none
  | fuel + 1, d, visitor, stack, w =>
    match d.eventA ar with
    | .ok (ev, d) =>
      match visitEvent P visitor ev w with
      | (.ok layer?, w) =>
        let next : Res (LoopExit P) × σ :=
          match layer? with
          | some layer => closeLoop P d false visitor layer stack w
          | none =>
            match stack with
            | frame :: stack => closeLoop P d true frame.1 frame.2 stack w
            | [] => (.ok (.done d), w)
        match next with
        | (.ok (.child d visitor layer stack), w) =>
          match openChild P d visitor layer stack w with
          | (.ok (d, visitor, stack), w) => outerLoopA fuel d visitor stack w
          | (r, w) => some (r.fail, w)
        | (.ok (.done d), w) => some (trailing d, w)
        | (r, w) => some (r.fail, w)
      | (r, w) => some (r.fail, dropStack stack w)
    | r => some (r.fail, dropStack stack w)

/-- `src/json/de.rs:60-184` `fn from_str_impl`. -/
def fromStrImplA (j : Bytes) (visitor : P.V) (w : σ) : Option (Res Unit × σ) :=
  outerLoopA P ar (j.length + 1) { input := j, pos := 0, buffer := [] } visitor [] w

end

/-- `src/json/de.rs:30-37` `fn from_str` at type `t`, as `fromStr`. -/
def fromStrA (E : Env) (ar : Arith) (t : Ty) (j : Bytes) : Option (Res Val × Heap) :=
  (fromStrImplA (lib E) ar j (.place t ⟨0, 0, 0⟩) Heap.init).map fun rh =>
    match rh.1 with
    | .ok _ =>
      match rh.2.mem.read ⟨0, 0, 0⟩ with
      | some (some v) => (.ok v, rh.2.write ⟨0, 0, 0⟩ none)
      | some none => (.err, rh.2)
      | none => (.panic, rh.2.bad)
    | .err => (.err, rh.2)
    | .panic => (.panic, rh.2)

end Miniserde
