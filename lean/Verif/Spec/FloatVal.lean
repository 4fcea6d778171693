import Mathlib.Algebra.Order.Field.Rat
import Mathlib.Algebra.Order.Field.Power
import Verif.Spec.Encode
import Verif.Spec.Number

/-!
# The real meaning of floats and of number literals

Exact values are rationals.  `RoundsTo f r x` is IEEE-754 rounding to nearest, ties to even, of the rational `r` to the format `f`.
-/

namespace Miniserde

/-- The exact value of a finite float (0 for the others). -/
def Flt.val : Flt → ℚ
  | .fin s m e => (if s then -1 else 1) * (m * 2 ^ e)
  | _ => 0

/-- The sign bit. -/
def Flt.sign : Flt → Bool
  | .fin s _ _ => s
  | .inf s => s
  | .nan => false

/-- `q` is the value of a finite number of the format. -/
def Fmt.Has (f : Fmt) (q : ℚ) : Prop :=
  ∃ (m : Nat) (e : Int), m < 2 ^ f.prec ∧ f.emin ≤ e ∧ e ≤ f.emax ∧ (q = m * 2 ^ e ∨ q = -(m * 2 ^ e))

/-- From here on a magnitude rounds to infinity: half a unit in the last place beyond the largest finite number. -/
def Fmt.limit (f : Fmt) : ℚ := (2 ^ f.prec - 1 / 2) * 2 ^ f.emax

/-- The largest finite number. -/
def Fmt.max (f : Fmt) : ℚ := (2 ^ f.prec - 1) * 2 ^ f.emax

/-- `x` is the rational `r` rounded to the format: the nearest number of the format, on a tie the one with an even mantissa; infinite
from `limit` on. -/
inductive RoundsTo (f : Fmt) (r : ℚ) : Flt → Prop
  | fin {s : Bool} {m : Nat} {e : Int} (hv : (Flt.fin s m e).Valid f) (hl : |r| < f.limit)
      (near : ∀ q, f.Has q → |(Flt.fin s m e).val - r| ≤ |q - r|)
      (tie : ∀ q, f.Has q → q ≠ (Flt.fin s m e).val → |(Flt.fin s m e).val - r| = |q - r| → m % 2 = 0)
      (pos : 0 < r → s = false) (neg : r < 0 → s = true) : RoundsTo f r (.fin s m e)
  | inf {s : Bool} (hl : f.limit ≤ |r|) (pos : 0 < r → s = false) (neg : r < 0 → s = true) : RoundsTo f r (.inf s)

/-- The value of the exponent part. -/
def ExpPart.value (x : ExpPart) : Int := if x.sign = some true then -(digitsVal x.digits : Int) else digitsVal x.digits

/-- The exact value of a number literal, without its sign: `int.frac` times a power of ten. -/
def NumLit.absValue (l : NumLit) : ℚ :=
  (digitsVal (l.int ++ l.frac.getD []) : ℚ) * 10 ^ ((l.exp.elim 0 ExpPart.value) - ((l.frac.getD []).length : Int))

/-- The exact value of a number literal. -/
def NumLit.value (l : NumLit) : ℚ := (if l.minus then -1 else 1) * l.absValue

/-- The exact value of a `Number`: what the parser delivered. -/
def Val.numVal : Val → ℚ
  | .numU n => n
  | .numI z => z
  | .numF x => x.val
  | _ => 0

/-- What any correct float printer promises: the literal written for `x` denotes a number whose nearest `f64` is `x`, with the sign of `x`, and is
no gigantic text.  (The `ryu` crate writes the shortest such literal.) -/
structure RyuRounds (lit : F64 → NumLit) : Prop where
  value : ∀ x : F64, x.isFinite = true → x.Valid binary64 → RoundsTo binary64 (lit x).value x
  sign : ∀ x : F64, x.isFinite = true → x.Valid binary64 → (lit x).minus = x.sign
  short : ∀ x : F64, x.isFinite = true → x.Valid binary64 → (lit x).text.length ≤ 2147482700

end Miniserde
