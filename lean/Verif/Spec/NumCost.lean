import Verif.Model.Lexer

/-!
# The conversion loop with an iteration budget
-/

namespace Miniserde

/-- `src/json/de.rs:631-655`, the loop of `f64_from_parts`, allowed to run its body `n` times; `none` when the budget is exhausted. -/
def f64LoopWithin : Nat → F64 → Int → Option (Res F64)
  | 0, _, _ => none
  | n + 1, f, exponent =>
    if exponent.natAbs < 309 then
      if exponent ≥ 0 then
        let f := Flt.mul binary64 f (Flt.pow10Lit exponent.natAbs)
        some (if f.isInfinite then .err else .ok f)
      else some (.ok (Flt.div binary64 f (Flt.pow10Lit exponent.natAbs)))
    else if f.isZero then some (.ok f)
    else if exponent ≥ 0 then some .err
    else f64LoopWithin n (Flt.div binary64 f (Flt.pow10Lit 308)) (exponent + 308)

end Miniserde
