import Verif.Spec.FloatVal

/-!
# Which `f64` is read

The documented algorithm in terms of IEEE rounding only: the digits are rounded to an `f64`, the power of ten is rounded to an `f64`, and their product or
quotient is rounded to an `f64`; below `10⁻³⁰⁸` the number is divided by `10³⁰⁸` first, as often as needed.
-/

namespace Miniserde

/-- `Scales a k r`: scaling the float `a` by `10 ^ k` gives the float `r`, or an overflow (`none`). -/
inductive Scales : F64 → Int → Option F64 → Prop
  /-- Up to `10³⁰⁸`: one multiplication. -/
  | mul {a b x : F64} {k : Int} (h0 : 0 ≤ k) (h : k ≤ 308) (hb : RoundsTo binary64 (10 ^ k) b) (hx : RoundsTo binary64 (a.val * b.val) x)
      (hf : x.isFinite = true) : Scales a k (some x)
  /-- The product is out of range. -/
  | over {a b x : F64} {k : Int} (h0 : 0 ≤ k) (h : k ≤ 308) (hb : RoundsTo binary64 (10 ^ k) b) (hx : RoundsTo binary64 (a.val * b.val) x)
      (hf : x.isFinite = false) : Scales a k none
  /-- Down to `10⁻³⁰⁸`: one division. -/
  | div {a b x : F64} {k : Int} (h0 : k < 0) (h : -308 ≤ k) (hb : RoundsTo binary64 (10 ^ (-k)) b) (hx : RoundsTo binary64 (a.val / b.val) x) :
      Scales a k (some x)
  /-- Zero needs no scaling. -/
  | zero {a : F64} {k : Int} (h : k < -308 ∨ 308 < k) (ha : a.val = 0) : Scales a k (some a)
  /-- Too large in any case. -/
  | big {a : F64} {k : Int} (h : 308 < k) (ha : a.val ≠ 0) : Scales a k none
  /-- Below `10⁻³⁰⁸`. -/
  | step {a b a' : F64} {k : Int} {r : Option F64} (h : k < -308) (ha : a.val ≠ 0) (hb : RoundsTo binary64 (10 ^ (308 : Int)) b)
      (hx : RoundsTo binary64 (a.val / b.val) a') (hs : Scales a' (k + 308) r) : Scales a k r

/-- The float read for the decimal number `n · 10 ^ k`. -/
def Converts (n : Nat) (k : Int) (r : Option F64) : Prop := ∃ a, RoundsTo binary64 n a ∧ Scales a k r

/-- The digits that are used: as many as fit into a `u64`, first those before the point, then those after it (a digit after the point may still fit when one before
the point did not); and the power of ten that makes up for the digits left out before the point and used after it. -/
def NumLit.used (l : NumLit) : Nat × Int :=
  let a := accum u64Max 0 l.int
  let b := accum u64Max a.1 (l.frac.getD [])
  (b.1, (a.2 : Int) - ((l.frac.getD []).length - b.2 : Nat))

end Miniserde
