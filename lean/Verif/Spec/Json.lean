import Verif.Model.Basic

/-!
# RFC 8259: JSON texts

The specification of "`bs` is a JSON text with syntax tree `t`", independent of the model of the parser.
It follows the ABNF of RFC 8259 rule by rule.  Texts are byte strings (UTF-8); since all structural characters
are ASCII, the grammar is stated on bytes, `unescaped = %x20-21 / %x23-5B / %x5D-10FFFF` becoming
"any byte other than a control character, the quote and the backslash".
`Spec/Utf8.lean` defines well-formed UTF-8.
-/

namespace Miniserde

/-! ## Ranges of the machine integers -/

/-- The largest `u64`. -/
abbrev u64Max : Nat := 18446744073709551615

/-- The smallest `i64`. -/
abbrev i64Min : Int := -9223372036854775808

/-- The largest `i64`. -/
abbrev i64Max : Int := 9223372036854775807

/-- The smallest number of an integer type with so many bits. -/
def lowest (signed : Bool) (bits : Nat) : Int := if signed then -2 ^ (bits - 1) else 0

/-- The largest number of an integer type with so many bits. -/
def highest (signed : Bool) (bits : Nat) : Int := if signed then 2 ^ (bits - 1) - 1 else 2 ^ bits - 1

/-! ## The grammar -/

/-- `ws = *( %x20 / %x09 / %x0A / %x0D )` -/
def Ws (bs : Bytes) : Prop := ∀ c ∈ bs, c = 0x20 ∨ c = 0x09 ∨ c = 0x0A ∨ c = 0x0D

/-- `DIGIT = %x30-39` -/
def IsDigit (c : UInt8) : Prop := 0x30 ≤ c ∧ c ≤ 0x39

instance : DecidablePred IsDigit := fun _ => inferInstanceAs (Decidable (_ ∧ _))

/-- `1*DIGIT` -/
def Digits (ds : Bytes) : Prop := ds ≠ [] ∧ ∀ c ∈ ds, IsDigit c

instance (ds : Bytes) : Decidable (Digits ds) := inferInstanceAs (Decidable (_ ∧ _))

/-- The exponent part of a number: `e [ minus / plus ] 1*DIGIT`. -/
structure ExpPart where
  /-- written `E` rather than `e` -/
  upper : Bool
  /-- no sign, or `some true` for `-`, `some false` for `+` -/
  sign : Option Bool
  digits : Bytes
  deriving DecidableEq, Repr

/-- A number literal, split along the ABNF: `number = [ minus ] int [ frac ] [ exp ]`. -/
structure NumLit where
  minus : Bool
  int : Bytes
  frac : Option Bytes
  exp : Option ExpPart
  deriving DecidableEq, Repr

def ExpPart.text (e : ExpPart) : Bytes :=
  (if e.upper then 0x45 else 0x65) ::
    ((match e.sign with | none => [] | some true => [0x2D] | some false => [0x2B]) ++ e.digits)

/-- The text of a number literal. -/
def NumLit.text (l : NumLit) : Bytes :=
  (if l.minus then [0x2D] else []) ++ l.int ++
    (match l.frac with | none => [] | some ds => 0x2E :: ds) ++
    (match l.exp with | none => [] | some e => e.text)

/-- `int = zero / ( digit1-9 *DIGIT )`, `frac = decimal-point 1*DIGIT`, `exp = e [ minus / plus ] 1*DIGIT`. -/
structure NumLit.WF (l : NumLit) : Prop where
  int_digits : Digits l.int
  int_zero : l.int.head? = some 0x30 → l.int = [0x30]
  frac_digits : ∀ ds, l.frac = some ds → Digits ds
  exp_digits : ∀ e, l.exp = some e → Digits e.digits

/-- Value of one hexadecimal digit `HEXDIG` (either case). -/
def hexDigit? (c : UInt8) : Option Nat :=
  if 0x30 ≤ c ∧ c ≤ 0x39 then some (c.toNat - 0x30)
  else if 0x61 ≤ c ∧ c ≤ 0x66 then some (c.toNat - 0x61 + 10)
  else if 0x41 ≤ c ∧ c ≤ 0x46 then some (c.toNat - 0x41 + 10)
  else none

/-- `4HEXDIG` denoting `n`. -/
def Hex4 (h : Bytes) (n : Nat) : Prop :=
  ∃ a b c d w x y z, h = [a, b, c, d] ∧ hexDigit? a = some w ∧ hexDigit? b = some x ∧
    hexDigit? c = some y ∧ hexDigit? d = some z ∧ n = 4096 * w + 256 * x + 16 * y + z

/-- UTF-8 encoding of a Unicode scalar value (Lean's core definition). -/
def utf8Of (c : Char) : Bytes := String.utf8EncodeChar c

/-- One `char` of a string body and the UTF-8 bytes it denotes. -/
inductive StrChar : Bytes → Bytes → Prop
  /-- `unescaped` -/
  | raw (c : UInt8) (h : 0x20 ≤ c) (hq : c ≠ 0x22) (hb : c ≠ 0x5C) : StrChar [c] [c]
  | quote : StrChar [0x5C, 0x22] [0x22]      -- \"
  | backslash : StrChar [0x5C, 0x5C] [0x5C]  -- \\
  | slash : StrChar [0x5C, 0x2F] [0x2F]      -- \/
  | bs : StrChar [0x5C, 0x62] [0x08]         -- \b
  | ff : StrChar [0x5C, 0x66] [0x0C]         -- \f
  | lf : StrChar [0x5C, 0x6E] [0x0A]         -- \n
  | cr : StrChar [0x5C, 0x72] [0x0D]         -- \r
  | tab : StrChar [0x5C, 0x74] [0x09]        -- \t
  /-- `\uXXXX` naming a character of the basic plane (not a surrogate) -/
  | unicode (h : Bytes) (c : Char) (hh : Hex4 h c.toNat) : StrChar (0x5C :: 0x75 :: h) (utf8Of c)
  /-- a surrogate pair `\uD8xx\uDCxx` naming the supplementary character
  `0x10000 + (hi - 0xD800) * 0x400 + (lo - 0xDC00)` -/
  | pair (h l : Bytes) (hi lo : Nat) (c : Char) (hh : Hex4 h hi) (hl : Hex4 l lo)
      (hhi : 0xD800 ≤ hi ∧ hi ≤ 0xDBFF) (hlo : 0xDC00 ≤ lo ∧ lo ≤ 0xDFFF)
      (hc : c.toNat = 0x10000 + (hi - 0xD800) * 0x400 + (lo - 0xDC00)) :
      StrChar (0x5C :: 0x75 :: (h ++ 0x5C :: 0x75 :: l)) (utf8Of c)

/-- `*char`: a string body and the bytes it denotes. -/
inductive StrBody : Bytes → Bytes → Prop
  | nil : StrBody [] []
  | cons {t u ts us : Bytes} (h : StrChar t u) (hs : StrBody ts us) : StrBody (t ++ ts) (u ++ us)

/-- `string = quotation-mark *char quotation-mark`. -/
inductive JString : Bytes → Bytes → Prop
  | mk {body s : Bytes} (h : StrBody body s) : JString (0x22 :: (body ++ [0x22])) s

/-- Syntax trees.  Repeated members are kept, in order; number literals are kept as written. -/
inductive Json where
  | null
  | bool (b : Bool)
  | num (l : NumLit)
  | str (s : Bytes)
  | arr (xs : List Json)
  | obj (ms : List (Bytes × Json))
  deriving Repr

mutual

/-- `value = false / null / true / object / array / number / string` -/
inductive JValue : Bytes → Json → Prop
  | null : JValue (str! "null") .null
  | true : JValue (str! "true") (.bool true)
  | false : JValue (str! "false") (.bool false)
  | num (l : NumLit) (h : l.WF) : JValue l.text (.num l)
  | str {t s : Bytes} (h : JString t s) : JValue t (.str s)
  /-- `array = begin-array [ value *( value-separator value ) ] end-array` -/
  | arrEmpty {w : Bytes} (hw : Ws w) : JValue (0x5B :: (w ++ [0x5D])) (.arr [])
  | arr {t : Bytes} {xs : List Json} (h : JElements t xs) : JValue (0x5B :: (t ++ [0x5D])) (.arr xs)
  /-- `object = begin-object [ member *( value-separator member ) ] end-object` -/
  | objEmpty {w : Bytes} (hw : Ws w) : JValue (0x7B :: (w ++ [0x7D])) (.obj [])
  | obj {t : Bytes} {ms : List (Bytes × Json)} (h : JMembers t ms) :
      JValue (0x7B :: (t ++ [0x7D])) (.obj ms)

/-- `value *( value-separator value )`, each value surrounded by optional whitespace. -/
inductive JElements : Bytes → List Json → Prop
  | one {w₁ t w₂ : Bytes} {x : Json} (h₁ : Ws w₁) (h : JValue t x) (h₂ : Ws w₂) :
      JElements (w₁ ++ (t ++ w₂)) [x]
  | cons {w₁ t w₂ ts : Bytes} {x : Json} {xs : List Json} (h₁ : Ws w₁) (h : JValue t x) (h₂ : Ws w₂)
      (hs : JElements ts xs) : JElements (w₁ ++ (t ++ (w₂ ++ 0x2C :: ts))) (x :: xs)

/-- `member *( value-separator member )` with `member = string name-separator value`. -/
inductive JMembers : Bytes → List (Bytes × Json) → Prop
  | one {w₁ k w₂ w₃ t w₄ key : Bytes} {x : Json} (h₁ : Ws w₁) (hk : JString k key) (h₂ : Ws w₂)
      (h₃ : Ws w₃) (h : JValue t x) (h₄ : Ws w₄) :
      JMembers (w₁ ++ (k ++ (w₂ ++ 0x3A :: (w₃ ++ (t ++ w₄))))) [(key, x)]
  | cons {w₁ k w₂ w₃ t w₄ key ts : Bytes} {x : Json} {ms : List (Bytes × Json)} (h₁ : Ws w₁)
      (hk : JString k key) (h₂ : Ws w₂) (h₃ : Ws w₃) (h : JValue t x) (h₄ : Ws w₄) (hs : JMembers ts ms) :
      JMembers (w₁ ++ (k ++ (w₂ ++ 0x3A :: (w₃ ++ (t ++ (w₄ ++ 0x2C :: ts)))))) ((key, x) :: ms)

end

/-- `JSON-text = ws value ws` -/
def JText (bs : Bytes) (t : Json) : Prop :=
  ∃ w₁ v w₂, bs = w₁ ++ (v ++ w₂) ∧ Ws w₁ ∧ JValue v t ∧ Ws w₂

end Miniserde
