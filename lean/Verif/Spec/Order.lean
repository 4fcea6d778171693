import Verif.Spec.FloatVal

/-!
# Order of floats

The IEEE-754 comparison `x <= y`, and when two number literals are written in the same layout.
-/

namespace Miniserde

/-- `x <= y` on floats. -/
def Flt.Le : Flt → Flt → Prop
  | .nan, _ => False
  | _, .nan => False
  | .inf true, _ => True
  | _, .inf false => True
  | .inf false, _ => False
  | _, .inf true => False
  | .fin s m e, .fin s' m' e' => (Flt.fin s m e).val ≤ (Flt.fin s' m' e').val

/-- Two literals have the same number of digits after the point and the same exponent, as in a column of a table. -/
def NumLit.SameLayout (l l' : NumLit) : Prop :=
  (l.frac.getD []).length = (l'.frac.getD []).length ∧ l.exp.map ExpPart.value = l'.exp.map ExpPart.value

/-- All digits of the literal together, read as one integer, fit into a `u64`. -/
def NumLit.Fits (l : NumLit) : Prop := digitsVal (l.int ++ l.frac.getD []) ≤ u64Max

/-- The literal with the other sign. -/
def NumLit.negated (l : NumLit) : NumLit := { l with minus := !l.minus }

end Miniserde
