import Verif.Model.Float

/-!
# The JSON tokenizer: methods of `Deserializer`

Models `src/json/de.rs:186-721`.  The state is passed explicitly; a method returning `Result` whose
error aborts `from_str_impl` (every use is followed by `?`) loses its state on failure.
-/

namespace Miniserde

/-- `src/json/de.rs:39-44` `struct Deserializer`, without the field `stack`, which only
`from_str_impl` uses and which the driver model (`Model/Driver.lean`) keeps itself. -/
structure De where
  input : Bytes
  pos : Nat
  buffer : Bytes
  deriving DecidableEq, Repr

/-- `src/json/de.rs:186-195` `enum Event`. -/
inductive Event where
  | null
  | bool (b : Bool)
  | str (s : Bytes)
  | negative (n : Int)
  | nonnegative (n : Nat)
  | float (f : F64)
  | seqStart
  | mapStart
  deriving DecidableEq, Repr

/-- `src/json/de.rs:197-203` `macro_rules! overflow` at type `u64` (and at `i32`, where all
operands are nonnegative): `a * 10 + b` exceeds `c`. -/
def overflows (a b c : Nat) : Bool :=
  decide (a ≥ c / 10) && (decide (a > c / 10) || decide (b > c % 10))

/-- `src/json/de.rs:703-721` `static ESCAPE: [bool; 256]`, one row of sixteen entries per line. -/
def ESCAPE : List Bool :=
  let CT := true; let QU := true; let BS := true; let O := false
  [ CT, CT, CT, CT, CT, CT, CT, CT, CT, CT, CT, CT, CT, CT, CT, CT, -- 0
    CT, CT, CT, CT, CT, CT, CT, CT, CT, CT, CT, CT, CT, CT, CT, CT, -- 1
     O,  O, QU,  O,  O,  O,  O,  O,  O,  O,  O,  O,  O,  O,  O,  O, -- 2
     O,  O,  O,  O,  O,  O,  O,  O,  O,  O,  O,  O,  O,  O,  O,  O, -- 3
     O,  O,  O,  O,  O,  O,  O,  O,  O,  O,  O,  O,  O,  O,  O,  O, -- 4
     O,  O,  O,  O,  O,  O,  O,  O,  O,  O,  O,  O, BS,  O,  O,  O, -- 5
     O,  O,  O,  O,  O,  O,  O,  O,  O,  O,  O,  O,  O,  O,  O,  O, -- 6
     O,  O,  O,  O,  O,  O,  O,  O,  O,  O,  O,  O,  O,  O,  O,  O, -- 7
     O,  O,  O,  O,  O,  O,  O,  O,  O,  O,  O,  O,  O,  O,  O,  O, -- 8
     O,  O,  O,  O,  O,  O,  O,  O,  O,  O,  O,  O,  O,  O,  O,  O, -- 9
     O,  O,  O,  O,  O,  O,  O,  O,  O,  O,  O,  O,  O,  O,  O,  O, -- A
     O,  O,  O,  O,  O,  O,  O,  O,  O,  O,  O,  O,  O,  O,  O,  O, -- B
     O,  O,  O,  O,  O,  O,  O,  O,  O,  O,  O,  O,  O,  O,  O,  O, -- C
     O,  O,  O,  O,  O,  O,  O,  O,  O,  O,  O,  O,  O,  O,  O,  O, -- D
     O,  O,  O,  O,  O,  O,  O,  O,  O,  O,  O,  O,  O,  O,  O,  O, -- E
     O,  O,  O,  O,  O,  O,  O,  O,  O,  O,  O,  O,  O,  O,  O,  O] -- F

/-- `ESCAPE[usize::from(b)]`; the table has 256 entries, so the default is never used. `src/json/de.rs:249`. -/
def mustEscape (b : UInt8) : Bool := ESCAPE.getD b.toNat true

/-- `core::char::from_u32`: `None` for surrogates and numbers above U+10FFFF.  Characters are modelled
by their code. `src/json/de.rs:325,333`. -/
def charFromU32 (n : Nat) : Option Nat :=
  if n < 0xD800 ∨ (0xDFFF < n ∧ n < 0x110000) then some n else none

/-- `char::encode_utf8(..).as_bytes()` of the standard library. `src/json/de.rs:342`. -/
def encodeUtf8 (c : Nat) : Bytes :=
  if c < 0x80 then [UInt8.ofNat c]
  else if c < 0x800 then [UInt8.ofNat (0xC0 + c / 64), UInt8.ofNat (0x80 + c % 64)]
  else if c < 0x10000 then
    [UInt8.ofNat (0xE0 + c / 4096), UInt8.ofNat (0x80 + c / 64 % 64), UInt8.ofNat (0x80 + c % 64)]
  else
    [UInt8.ofNat (0xF0 + c / 262144), UInt8.ofNat (0x80 + c / 4096 % 64),
      UInt8.ofNat (0x80 + c / 64 % 64), UInt8.ofNat (0x80 + c % 64)]

namespace De

/-- `src/json/de.rs:206-214` `fn next`. -/
def next (d : De) : Option UInt8 × De :=
  match d.input[d.pos]? with
  | some ch => (some ch, { d with pos := d.pos + 1 })
  | none => (none, d)

/-- `src/json/de.rs:216-218` `fn next_or_nul`. -/
def nextOrNul (d : De) : UInt8 × De := ((d.next).1.getD 0, (d.next).2)

/-- `src/json/de.rs:220-226` `fn peek`. -/
def peek (d : De) : Option UInt8 := d.input[d.pos]?

/-- `src/json/de.rs:228-230` `fn peek_or_nul`. -/
def peekOrNul (d : De) : UInt8 := d.peek.getD 0

/-- `src/json/de.rs:232-234` `fn bump`. -/
def bump (d : De) : De := { d with pos := d.pos + 1 }

/-- `src/json/de.rs:282-284` `fn next_or_eof`. -/
def nextOrEof (d : De) : Res (UInt8 × De) :=
  match d.next with
  | (some b, d) => .ok (b, d)
  | (none, _) => .err

/-- `&self.input[start..end_]`: panics unless `start ≤ end_ ≤ len`. `src/json/de.rs:260,264,270`. -/
def slice (d : De) (start end_ : Nat) : Res Bytes :=
  if start ≤ end_ ∧ end_ ≤ d.input.length then .ok ((d.input.take end_).drop start) else .panic

/-- `self.buffer.push(b)`. `src/json/de.rs:292-299`. -/
def push (d : De) (b : UInt8) : De := { d with buffer := d.buffer ++ [b] }

/-- `self.buffer.extend_from_slice(bs)`. `src/json/de.rs:264,270,342`. -/
def extend (d : De) (bs : Bytes) : De := { d with buffer := d.buffer ++ bs }

/-- `src/json/de.rs:356-365`: value of one hexadecimal digit. -/
def hexVal (c : UInt8) : Option Nat :=
  if isDigit c then some (digitVal c)
  else if c = b('a') ∨ c = b('A') then some 10
  else if c = b('b') ∨ c = b('B') then some 11
  else if c = b('c') ∨ c = b('C') then some 12
  else if c = b('d') ∨ c = b('D') then some 13
  else if c = b('e') ∨ c = b('E') then some 14
  else if c = b('f') ∨ c = b('F') then some 15
  else none

/-- Loop body of `src/json/de.rs:354-367`, `k` iterations left. -/
def hexLoop : Nat → De → Nat → Res (Nat × De)
  | 0, d, n => .ok (n, d)
  | k + 1, d, n => d.nextOrEof.bind fun (r : UInt8 × De) =>
    match hexVal r.1 with
    | some v => (u16 (n * 16 + v)).bind fun n => hexLoop k r.2 n
    | none => .err

/-- `src/json/de.rs:352-369` `fn decode_hex_escape`. -/
def decodeHexEscape (d : De) : Res (Nat × De) := hexLoop 4 d 0

/-- `n1 - 0xD800` etc. on `u16`: panics below zero. `src/json/de.rs:323`. -/
def subU16 (a b : Nat) : Res Nat := if b ≤ a then .ok (a - b) else .panic

/-- The pattern `0xDC00..=0xDFFF` (`src/json/de.rs:302`); its negation is the test
`n2 < 0xDC00 || n2 > 0xDFFF` of `src/json/de.rs:318`. -/
def isLowSurrogate (n : Nat) : Bool := decide (0xDC00 ≤ n) && decide (n ≤ 0xDFFF)

/-- The pattern `0xD800..=0xDBFF` (`src/json/de.rs:308`). -/
def isHighSurrogate (n : Nat) : Bool := decide (0xD800 ≤ n) && decide (n ≤ 0xDBFF)

/-- `src/json/de.rs:322-323`: `((u32::from(hi) << 10) | u32::from(lo)) + 0x1_0000`. -/
def surrogatePair (hi lo : Nat) : Nat := ((hi <<< 10) ||| lo) + 0x10000

/-- `src/json/de.rs:301-339`: the character denoted by a `\\u` escape (the `u` has been read). -/
def unicodeEscape (d : De) : Res (Nat × De) :=
  d.decodeHexEscape.bind fun (n1 : Nat × De) =>
  if isLowSurrogate n1.1 then .err
  else if isHighSurrogate n1.1 then
    n1.2.nextOrEof.bind fun (c1 : UInt8 × De) =>
    if c1.1 ≠ b('\\') then .err
    else
      c1.2.nextOrEof.bind fun (c2 : UInt8 × De) =>
      if c2.1 ≠ b('u') then .err
      else
        c2.2.decodeHexEscape.bind fun (n2 : Nat × De) =>
        if !isLowSurrogate n2.1 then .err
        else
          (subU16 n1.1 0xD800).bind fun hi =>
          (subU16 n2.1 0xDC00).bind fun lo =>
          match charFromU32 (surrogatePair hi lo) with
          | some c => .ok (c, n2.2)
          | none => .err
  else
    match charFromU32 n1.1 with
    | some c => .ok (c, n1.2)
    | none => .err

/-- `src/json/de.rs:288-350` `fn parse_escape`. -/
def parseEscape (d : De) : Res De :=
  d.nextOrEof.bind fun (r : UInt8 × De) =>
  if r.1 = b('"') then .ok (r.2.push b('"'))
  else if r.1 = b('\\') then .ok (r.2.push b('\\'))
  else if r.1 = b('/') then .ok (r.2.push b('/'))
  else if r.1 = b('b') then .ok (r.2.push 0x08)
  else if r.1 = b('f') then .ok (r.2.push 0x0c)
  else if r.1 = b('n') then .ok (r.2.push b('\n'))
  else if r.1 = b('r') then .ok (r.2.push b('\r'))
  else if r.1 = b('t') then .ok (r.2.push b('\t'))
  else if r.1 = b('u') then r.2.unicodeEscape.bind fun (u : Nat × De) => .ok (u.2.extend (encodeUtf8 u.1))
  else .err

/-- `src/json/de.rs:249-251`: the scan `while pos < len && !ESCAPE[..] { pos += 1 }`. -/
def skipPlain (d : De) : De :=
  match _h : d.input[d.pos]? with
  | some c => if mustEscape c then d else skipPlain d.bump
  | none => d
termination_by d.input.length - d.pos
decreasing_by
  have := (List.getElem?_eq_some_iff.1 _h).1
  simp only [bump]; omega

/-! Facts needed for the termination of the loops below: every reading step moves forward. -/

theorem nextOrEof_adv {d d' : De} {c : UInt8} (h : d.nextOrEof = .ok (c, d')) :
    d'.input = d.input ∧ d.pos < d'.pos ∧ d'.pos ≤ d.input.length := by
  unfold nextOrEof next at h
  split at h
  · rename_i h2
    split at h2
    · rename_i _ h3
      have := (List.getElem?_eq_some_iff.1 h3).1
      simp only [Prod.mk.injEq, Option.some.injEq] at h2
      simp only [Res.ok.injEq, Prod.mk.injEq] at h
      obtain ⟨-, rfl⟩ := h2
      obtain ⟨-, rfl⟩ := h
      exact ⟨rfl, Nat.lt_succ_self _, this⟩
    · simp at h2
  · simp at h

theorem hexLoop_adv {k : Nat} {d d' : De} {n n' : Nat} (h : hexLoop k d n = .ok (n', d')) :
    d'.input = d.input ∧ d.pos ≤ d'.pos ∧ (d.pos ≤ d.input.length → d'.pos ≤ d.input.length) := by
  induction k generalizing d n with
  | zero => simp [hexLoop] at h; obtain ⟨-, rfl⟩ := h; simp
  | succ k ih =>
    simp only [hexLoop, Res.bind_eq_ok'] at h
    obtain ⟨⟨c, d1⟩, h1, h2⟩ := h
    obtain ⟨i1, p1, q1⟩ := nextOrEof_adv h1
    split at h2
    · rw [Res.bind_eq_ok'] at h2
      obtain ⟨m, -, h3⟩ := h2
      obtain ⟨i2, p2, q2⟩ := ih h3
      simp only [i1] at i2 q2 p2
      exact ⟨i2, by omega, fun _ => q2 q1⟩
    · simp at h2

theorem unicodeEscape_adv {d d' : De} {c : Nat} (h : d.unicodeEscape = .ok (c, d')) :
    d'.input = d.input ∧ d.pos ≤ d'.pos ∧ (d.pos ≤ d.input.length → d'.pos ≤ d.input.length) := by
  unfold unicodeEscape decodeHexEscape at h
  rw [Res.bind_eq_ok'] at h
  obtain ⟨⟨n1, d2⟩, h3, h4⟩ := h
  have a2 := hexLoop_adv h3
  split at h4
  · simp at h4
  · split at h4
    · rw [Res.bind_eq_ok'] at h4
      obtain ⟨⟨c1, d3⟩, h5, h6⟩ := h4
      have a3 := nextOrEof_adv h5
      split at h6
      · simp at h6
      · rw [Res.bind_eq_ok'] at h6
        obtain ⟨⟨c2, d4⟩, h7, h8⟩ := h6
        have a4 := nextOrEof_adv h7
        split at h8
        · simp at h8
        · rw [Res.bind_eq_ok'] at h8
          obtain ⟨⟨n2, d5⟩, h9, h10⟩ := h8
          have a5 := hexLoop_adv h9
          split at h10
          · simp at h10
          · rw [Res.bind_eq_ok'] at h10
            obtain ⟨hi, -, h11⟩ := h10
            rw [Res.bind_eq_ok'] at h11
            obtain ⟨lo, -, h11⟩ := h11
            split at h11
            · simp only [Res.ok.injEq, Prod.mk.injEq] at h11
              obtain ⟨-, rfl⟩ := h11
              grind
            · simp at h11
    · split at h4
      · simp only [Res.ok.injEq, Prod.mk.injEq] at h4
        obtain ⟨-, rfl⟩ := h4
        exact a2
      · simp at h4

theorem parseEscape_adv {d d' : De} (h : d.parseEscape = .ok d') :
    d'.input = d.input ∧ d.pos < d'.pos ∧ d'.pos ≤ d.input.length := by
  unfold parseEscape at h
  rw [Res.bind_eq_ok'] at h
  obtain ⟨⟨c, d1⟩, h1, h2⟩ := h
  have a1 := nextOrEof_adv h1
  iterate 8 (split at h2; · (simp only [Res.ok.injEq] at h2; subst h2; exact a1))
  split at h2
  · rw [Res.bind_eq_ok'] at h2
    obtain ⟨⟨c', d2⟩, h3, h4⟩ := h2
    have a2 := unicodeEscape_adv h3
    simp only [Res.ok.injEq] at h4
    subst h4
    simp only [extend]
    grind
  · simp at h2

theorem skipPlain_adv (d : De) :
    d.skipPlain.input = d.input ∧ d.pos ≤ d.skipPlain.pos ∧
      (d.pos ≤ d.input.length → d.skipPlain.pos ≤ d.input.length) := by
  fun_induction skipPlain d with
  | case1 d c h hc => simp
  | case2 d c h hc ih =>
    have := (List.getElem?_eq_some_iff.1 h).1
    have e1 : d.bump.input = d.input := rfl
    have e2 : d.bump.pos = d.pos + 1 := rfl
    rw [e1, e2] at ih
    exact ⟨ih.1, by omega, fun _ => ih.2.2 (by omega)⟩
  | case3 d h => simp

/-- `src/json/de.rs:248-279`: the `loop` of `parse_str`.  `start` is the index of the first byte not yet
copied into the scratch buffer.  The two `return` branches at a closing quote (zero-copy
slice of the input / scratch buffer) both return the bytes of the resulting `&str`. -/
def parseStrLoop (d : De) (start : Nat) : Res (Bytes × De) :=
  let d1 := d.skipPlain
  match _hc : d1.input[d1.pos]? with
  | none => .err
  | some c =>
    if c = b('"') then
      if d1.buffer.isEmpty then
        (d1.slice start d1.pos).bind fun borrowed => .ok (borrowed, d1.bump)
      else
        (d1.slice start d1.pos).bind fun tail => .ok ((d1.extend tail).buffer, (d1.extend tail).bump)
    else if c = b('\\') then
      match d1.slice start d1.pos with
      | .ok chunk =>
        let d2 := (d1.extend chunk).bump
        match _he : d2.parseEscape with
        | .ok d3 => parseStrLoop d3 d3.pos
        | .err => .err
        | .panic => .panic
      | .err => .err
      | .panic => .panic
    else .err
termination_by d.input.length - d.pos
decreasing_by
  have a1 := skipPlain_adv d
  have a2 := parseEscape_adv _he
  have a3 := (List.getElem?_eq_some_iff.1 _hc).1
  simp only [d2, bump, extend] at a2
  simp only [d1] at a2 a3 ⊢
  rw [a1.1] at a2 a3
  rw [a2.1]
  omega

/-- `src/json/de.rs:236-280` `fn parse_str`: `start = self.pos; self.buffer.clear(); loop ..`. -/
def parseStr (d : De) : Res (Bytes × De) := parseStrLoop { d with buffer := [] } d.pos

/-- The whitespace bytes of `src/json/de.rs:374`. -/
def isWs (b : UInt8) : Bool := b = b(' ') || b = b('\n') || b = b('\t') || b = b('\r')

/-- `src/json/de.rs:371-382` `fn parse_whitespace`; returns the peeked byte and the new state. -/
def parseWhitespace (d : De) : Option UInt8 × De :=
  match _h : d.input[d.pos]? with
  | some c => if isWs c then parseWhitespace d.bump else (some c, d)
  | none => (none, d)
termination_by d.input.length - d.pos
decreasing_by
  have := (List.getElem?_eq_some_iff.1 _h).1
  simp only [bump]; omega

/-- `src/json/de.rs:384-398` `fn parse_ident`. -/
def parseIdent : De → Bytes → Res De
  | d, [] => .ok d
  | d, e :: es =>
    match d.next with
    | (none, _) => .err
    | (some n, d) => if n ≠ e then .err else parseIdent d es

/-- `src/json/de.rs:661-693` `static POW10: [f64; 309]`: entry `k` is the literal `1e<k>`.
Looking up with `POW10.get(i)`. -/
def POW10 (i : Nat) : Option F64 := if i < 309 then some (Flt.pow10Lit i) else none

/-- `src/json/de.rs:631-655`: the loop of `f64_from_parts`, returning the final `f`. -/
def f64Loop (f : F64) (exponent : Int) : Res F64 :=
  match POW10 exponent.natAbs with
  | some pow =>
    if exponent ≥ 0 then
      let f := Flt.mul binary64 f pow
      if f.isInfinite then .err else .ok f
    else .ok (Flt.div binary64 f pow)
  | none =>
    if f.isZero then .ok f
    else if _h : exponent ≥ 0 then .err
    else if _h2 : exponent + 308 < 0 then
      f64Loop (Flt.div binary64 f (Flt.pow10Lit 308)) (exponent + 308)
    else .panic -- not reachable: `POW10 = none` means `|exponent| > 308`
termination_by exponent.natAbs
decreasing_by omega

/-- `src/json/de.rs:629-657` `fn f64_from_parts`. -/
def f64FromParts (nonneg : Bool) (significand : Nat) (exponent : Int) : Res F64 :=
  (f64Loop (Flt.ofNat binary64 significand) exponent).bind fun f => .ok (if nonneg then f else f.neg)

theorem peekOrNul_digit_lt {d : De} (h : isDigit d.peekOrNul = true) : d.pos < d.input.length := by
  unfold peekOrNul peek at h
  cases hc : d.input[d.pos]? with
  | none => simp [hc, isDigit] at h
  | some c => exact (List.getElem?_eq_some_iff.1 hc).1

/-- `while let b'0'..=b'9' = self.peek_or_nul() { self.bump(); }`
(`src/json/de.rs:508-510`, `591-593`). -/
def skipDigits (d : De) : De :=
  if _h : isDigit d.peekOrNul = true then skipDigits d.bump else d
termination_by d.input.length - d.pos
decreasing_by
  have := peekOrNul_digit_lt _h
  simp only [bump]; omega

/-- `src/json/de.rs:580-595` `fn parse_exponent_overflow`. -/
def parseExponentOverflow (d : De) (nonneg : Bool) (significand : Nat) (positiveExp : Bool) :
    Res (F64 × De) :=
  if significand ≠ 0 ∧ positiveExp = true then .err
  else
    let d := d.skipDigits
    .ok (.fin (!nonneg) 0 binary64.emin, d) -- `0.0` / `-0.0`

/-- `src/json/de.rs:556-573`: the digit loop of `parse_exponent` and what follows it. -/
def exponentLoop (nonneg : Bool) (significand : Nat) (startingExp : Int) (positiveExp : Bool)
    (d : De) (exp : Nat) : Res (F64 × De) :=
  if _h : isDigit d.peekOrNul = true then
    let digit := digitVal d.peekOrNul
    let d1 := d.bump
    if overflows exp digit 2147483647 then d1.parseExponentOverflow nonneg significand positiveExp
    else if (exp : Int) * 10 + digit ≤ I32_MAX then
      exponentLoop nonneg significand startingExp positiveExp d1 (exp * 10 + digit)
    else .panic -- `i32` overflow of `exp * 10 + digit`
  else
    let finalExp := if positiveExp then satI32 (startingExp + exp) else satI32 (startingExp - exp)
    (f64FromParts nonneg significand finalExp).bind fun f => .ok (f, d)
termination_by d.input.length - d.pos
decreasing_by
  have := peekOrNul_digit_lt _h
  simp only [bump]; omega

/-- `src/json/de.rs:528-574` `fn parse_exponent`. -/
def parseExponent (d : De) (nonneg : Bool) (significand : Nat) (startingExp : Int) :
    Res (F64 × De) :=
  let d := d.bump
  let (positiveExp, d) :=
    if d.peekOrNul = b('+') then (true, d.bump)
    else if d.peekOrNul = b('-') then (false, d.bump)
    else (true, d)
  let (c, d) := d.nextOrNul
  if isDigit c then exponentLoop nonneg significand startingExp positiveExp d (digitVal c)
  else .err

/-- `src/json/de.rs:500-516`: the digit loop of `parse_decimal`.  Returns whether at least one digit was read,
the significand and the exponent. -/
def decimalLoop (d : De) (atLeastOne : Bool) (significand : Nat) (exponent : Int) :
    Res ((Bool × Nat × Int) × De) :=
  if _h : isDigit d.peekOrNul = true then
    let digit := digitVal d.peekOrNul
    let d1 := d.bump
    if overflows significand digit U64_MAX then .ok ((true, significand, exponent), d1.skipDigits)
    else
      match u64 (significand * 10 + digit), i32 (exponent - 1) with
      | .ok s, .ok e => decimalLoop d1 true s e
      | _, _ => .panic
  else .ok ((atLeastOne, significand, exponent), d)
termination_by d.input.length - d.pos
decreasing_by
  have := peekOrNul_digit_lt _h
  simp only [bump]; omega

/-- `src/json/de.rs:491-526` `fn parse_decimal`. -/
def parseDecimal (d : De) (nonneg : Bool) (significand : Nat) (exponent : Int) : Res (F64 × De) :=
  (decimalLoop d.bump false significand exponent).bind fun (r : (Bool × Nat × Int) × De) =>
  if !r.1.1 then .err
  else if r.2.peekOrNul = b('e') ∨ r.2.peekOrNul = b('E') then r.2.parseExponent nonneg r.1.2.1 r.1.2.2
  else (f64FromParts nonneg r.1.2.1 r.1.2.2).bind fun f => .ok (f, r.2)

/-- `src/json/de.rs:443-468` `fn parse_long_integer`. -/
def parseLongInteger (d : De) (nonneg : Bool) (significand : Nat) (exponent : Int) : Res (F64 × De) :=
  if _h : isDigit d.peekOrNul = true then
    match i32 (exponent + 1) with
    | .ok e => parseLongInteger d.bump nonneg significand e
    | _ => .panic
  else if d.peekOrNul = b('.') then d.parseDecimal nonneg significand exponent
  else if d.peekOrNul = b('e') ∨ d.peekOrNul = b('E') then d.parseExponent nonneg significand exponent
  else (f64FromParts nonneg significand exponent).bind fun f => .ok (f, d)
termination_by d.input.length - d.pos
decreasing_by
  have := peekOrNul_digit_lt _h
  simp only [bump]; omega

/-- `.map(Float)`. `src/json/de.rs:428,472-473`. -/
def mapFloat (r : Res (F64 × De)) : Res (Event × De) := r.map fun p => (.float p.1, p.2)

/-- `src/json/de.rs:470-489` `fn parse_number`. -/
def parseNumber (d : De) (nonneg : Bool) (significand : Nat) : Res (Event × De) :=
  if d.peekOrNul = b('.') then mapFloat (d.parseDecimal nonneg significand 0)
  else if d.peekOrNul = b('e') ∨ d.peekOrNul = b('E') then mapFloat (d.parseExponent nonneg significand 0)
  else if nonneg then .ok (.nonnegative significand, d)
  else
    let neg := wrappingNegI64 (asI64 significand)
    if neg > 0 then .ok (.float (Flt.ofNat binary64 significand).neg, d)
    else .ok (.negative neg, d)

/-- `src/json/de.rs:412-437`: the digit loop of `parse_integer`. -/
def integerLoop (d : De) (nonneg : Bool) (res : Nat) : Res (Event × De) :=
  if _h : isDigit d.peekOrNul = true then
    let digit := digitVal d.peekOrNul
    let d1 := d.bump
    if overflows res digit U64_MAX then mapFloat (d1.parseLongInteger nonneg res 1)
    else
      match u64 (res * 10 + digit) with
      | .ok r => integerLoop d1 nonneg r
      | _ => .panic
  else d.parseNumber nonneg res
termination_by d.input.length - d.pos
decreasing_by
  have := peekOrNul_digit_lt _h
  simp only [bump]; omega

/-- `src/json/de.rs:400-441` `fn parse_integer`. -/
def parseInteger (d : De) (nonneg : Bool) (firstDigit : UInt8) : Res (Event × De) :=
  if firstDigit = b('0') then
    if isDigit d.peekOrNul then .err else d.parseNumber nonneg 0
  else if isDigit firstDigit then integerLoop d nonneg (digitVal firstDigit)
  else .err

/-- `src/json/de.rs:597-626` `fn event`. -/
def event (d : De) : Res (Event × De) :=
  match d.parseWhitespace with
  | (none, _) => .err
  | (some c, d) =>
    let d := d.bump
    if c = b('"') then d.parseStr.map fun p => (.str p.1, p.2)
    else if isDigit c then d.parseInteger true c
    else if c = b('-') then
      let (firstDigit, d) := d.nextOrNul
      d.parseInteger false firstDigit
    else if c = b('{') then .ok (.mapStart, d)
    else if c = b('[') then .ok (.seqStart, d)
    else if c = b('n') then (d.parseIdent (str! "ull")).map fun d => (.null, d)
    else if c = b('t') then (d.parseIdent (str! "rue")).map fun d => (.bool true, d)
    else if c = b('f') then (d.parseIdent (str! "alse")).map fun d => (.bool false, d)
    else .err

end De

end Miniserde
