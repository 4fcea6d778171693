import Verif.Spec.Generic
import Verif.Spec.Release
import Verif.Spec.Api

/-!
# Implementations that read like a library type
-/

namespace Miniserde
variable {σ α : Type}

/-- What a struct field of type `t` gets when its member is absent. -/
def Ty.absent : Ty → Option Val
  | .opt _ => some .optNone
  | _ => none

/-- The hand-written implementation `I` of `Deserialize` for some type `α` reads what the library or derived type `t` reads: on every JSON text (whose
number literals are below 2 GiB), in every state, `from_str` succeeds for both or fails for both, and `f` turns the values of `α` into those of `t`.  As a
struct field it may be absent if `t` may.  It fills its place when it succeeds and does not care what the place contained. -/
structure Deser.Like (E : Env) (t : Ty) (f : α → Val) (I : Deser σ α) : Prop where
  reads : ∀ s j, JText s j → j.ShortNums → ∀ w, ∃ r w', I.fromStr s w = some (r, w') ∧ parseAs E t s = some (r.map f)
  absent : I.default.map f = t.absent
  delivers : I.Delivers
  overwrites : I.Overwrites

end Miniserde
