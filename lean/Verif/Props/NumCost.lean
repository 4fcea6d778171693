import Verif.Proof.NumCost

/-!
# Cost of number conversion
-/

namespace Miniserde

/-- **C46.** Converting the parts of a number literal to `f64` runs the scaling loop at most three times, whatever the exponent (also
`1e-2147483648`): the loop with a budget of three iterations gives the result of the loop without one. -/
theorem C46_three_iterations (significand : Nat) (h : significand ≤ u64Max) (exponent : Int) :
    f64LoopWithin 3 (Flt.ofNat binary64 significand) exponent = some (De.f64Loop (Flt.ofNat binary64 significand) exponent) := by
  obtain ⟨r, hr⟩ := f64LoopWithin_three h exponent
  rw [hr, f64LoopWithin_sound hr]

/-- Two do not always suffice. -/
example : f64LoopWithin 2 (Flt.ofNat binary64 18446744073709551615) (-2147483648) = none := by decide +kernel

end Miniserde
