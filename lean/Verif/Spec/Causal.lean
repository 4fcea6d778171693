import Verif.Spec.Viable
import Verif.Spec.Json

/-!
# What can be pending when the input ends

`from_str` works from left to right.  If its input is cut off, it may have made one call that it would not have made had it seen more of the input: the number that
the input ends with may go on, and the array just opened may be empty.
-/

namespace Miniserde

/-- A call that delivers a number. -/
def Seen.isNumber : Seen → Prop
  | .negative _ => True
  | .nonnegative _ => True
  | .float _ => True
  | _ => False

/-- `Pending p d`: the calls `d` at the end of what is seen on `p` may be withdrawn if `p` goes on. -/
inductive Pending : Bytes → List Seen → Prop
  /-- nothing is withdrawn -/
  | none (p : Bytes) : Pending p []
  /-- `p` ends with an opening bracket (and whitespace): the array may turn out to be empty -/
  | element (q w : Bytes) (hw : Ws w) : Pending (q ++ 0x5B :: w) [.element]
  /-- `p` ends with a digit: the number may have more digits -/
  | number (q : Bytes) (c : UInt8) (hc : IsDigit c) (x : Seen) (hx : x.isNumber) : Pending (q ++ [c]) [x]

/-- `p` is the beginning of some JSON text. -/
def Extends (p : Bytes) : Prop := ∃ x j, JText (p ++ x) j

end Miniserde
