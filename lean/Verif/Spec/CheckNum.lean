import Verif.Model.Driver
import Verif.Spec.FloatVal

/-!
# A visitor that insists on machine numbers
-/

namespace Miniserde

open Classical in
/-- The protocol `P`, except that it panics when it is handed a `float` that is not a finite `f64`, a `nonnegative` that is no `u64`, or a
`negative` that is no `i64` or is positive. -/
noncomputable def Proto.checkNumbers {σ : Type} (P : Proto σ) : Proto σ :=
  { P with
    float := fun v x w => if x.isFinite = true ∧ x.Valid binary64 then P.float v x w else (.panic, w)
    nonnegative := fun v n w => if n ≤ u64Max then P.nonnegative v n w else (.panic, w)
    negative := fun v n w => if i64Min ≤ n ∧ n ≤ 0 then P.negative v n w else (.panic, w) }

end Miniserde
