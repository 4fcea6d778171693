import Verif.Spec.ViaValue

/-!
# When names cannot clash

Types of the program whose members have different names: no struct declares (after renaming) the same name twice, different keys are printed
differently, and no key is less than itself.
-/

namespace Miniserde

structure Env.DistinctNames (E : Env) : Prop where
  fields : ∀ i, ((E.fields i).map Prod.fst).Nodup
  keys : ∀ k a b, E.keyShow k a = E.keyShow k b → a = b
  order : ∀ k a, E.keyLt k a a = false

end Miniserde
