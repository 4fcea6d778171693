import Verif.Model.Lexer
import Verif.Spec.Json

/-!
# What a number literal is delivered as

`numEvent l` is a closed form, by recursion on the digits of the literal, of the event the tokenizer delivers for the
literal `l`: the digits are accumulated into a `u64` as long as they fit, the digits that do not fit are counted, and
the result is an exact integer or `significand * 10^exponent` evaluated in `f64`.  What this closed form *means*
(exactness on integers, finiteness, error bounds) is stated separately, on the value of the literal
(`NumLit.value`).
-/

namespace Miniserde

/-- The natural number denoted by a digit string. -/
def digitsVal (ds : Bytes) : Nat := ds.foldl (fun a c => a * 10 + (c.toNat - 48)) 0

/-- Append digits to `acc` as long as the number stays `≤ bound`; returns the number and how many digits
were left over. -/
def accum (bound : Nat) : Nat → Bytes → Nat × Nat
  | acc, [] => (acc, 0)
  | acc, c :: cs =>
    if acc * 10 + (c.toNat - 48) ≤ bound then accum bound (acc * 10 + (c.toNat - 48)) cs
    else (acc, cs.length + 1)

/-- Evaluate `±significand * 10^(exponent ± exp)` where the digits of `exp` are given. -/
def expValue (nonneg : Bool) (sig : Nat) (exponent : Int) : Option ExpPart → Res F64
  | none => De.f64FromParts nonneg sig exponent
  | some x =>
    let a := accum 2147483647 0 x.digits
    let positive := x.sign != some true
    if a.2 ≠ 0 then
      if sig ≠ 0 ∧ positive = true then .err else .ok (.fin (!nonneg) 0 binary64.emin)
    else De.f64FromParts nonneg sig (satI32 (if positive then exponent + a.1 else exponent - a.1))

/-- Append the fraction digits to the significand, then apply the exponent part. -/
def fracValue (nonneg : Bool) (sig : Nat) (exponent : Int) (x : Option ExpPart) : Option Bytes → Res F64
  | none => expValue nonneg sig exponent x
  | some fs =>
    let a := accum u64Max sig fs
    (i32 (exponent - ((fs.length - a.2 : Nat) : Int))).bind fun e => expValue nonneg a.1 e x

/-- The event delivered for a number literal. -/
def numEvent (l : NumLit) : Res Event :=
  let a := accum u64Max 0 l.int
  if a.2 = 0 ∧ l.frac = none ∧ l.exp = none then
    if l.minus then
      if a.1 ≤ 9223372036854775808 then .ok (.negative (-(a.1 : Int)))
      else .ok (.float (Flt.ofNat binary64 a.1).neg)
    else .ok (.nonnegative a.1)
  else
    (i32 a.2).bind fun e => (fracValue (!l.minus) a.1 e l.exp l.frac).map .float

end Miniserde
