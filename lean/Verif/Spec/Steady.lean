import Verif.Spec.Encode

/-!
# Hash maps that are iterated in the same order each time

Iterating over a `HashMap` twice without changing it gives its entries in the same order.  (A map is represented by the list of its entries, in any order, so `ord` may
treat two maps with the same entries differently.)
-/

namespace Miniserde

/-- Every map is iterated in the same order each time. -/
def Steady (order : Nat → List (Bytes × Val) → List (Bytes × Val)) : Prop := ∀ n ms, order n ms = order 0 ms

end Miniserde
