import Verif.Model.Release
import Verif.Spec.Traversal

/-!
# What a release build delivers for a number literal

As `numEvent` (`Spec/Number.lean`), but the decimal exponent is reduced modulo 2^32 into the range of `i32` instead of being checked.  For literals shorter than 2 GiB the
two agree.
-/

namespace Miniserde

/-- As `fracValue`. -/
def fracValueR (nonneg : Bool) (sig : Nat) (exponent : Int) (x : Option ExpPart) : Option Bytes → Res F64
  | none => expValue nonneg sig exponent x
  | some fs => expValue nonneg (accum u64Max sig fs).1 (wrapI32 (exponent - ((fs.length - (accum u64Max sig fs).2 : Nat) : Int))) x

/-- The event delivered for a number literal. -/
def numEventR (l : NumLit) : Res Event :=
  let a := accum u64Max 0 l.int
  if a.2 = 0 ∧ l.frac = none ∧ l.exp = none then
    if l.minus then
      if a.1 ≤ 9223372036854775808 then .ok (.negative (-(a.1 : Int)))
      else .ok (.float (Flt.ofNat binary64 a.1).neg)
    else .ok (.nonnegative a.1)
  else (fracValueR (!l.minus) a.1 (wrapI32 a.2) l.exp l.frac).map .float

section
variable {σ : Type} (P : Proto σ)

/-- As `driveNum`. -/
def driveNumR (v : P.V) (l : NumLit) (w : σ) : Res Unit × σ :=
  match numEventR l with
  | .ok (.negative n) => P.negative v n w
  | .ok (.nonnegative n) => P.nonnegative v n w
  | .ok (.float f) => P.float v f w
  | .err => (.err, w)
  | _ => (.panic, w)

mutual

/-- Traverse one value, as `drive`. -/
def driveR (v : P.V) : Json → σ → Res Unit × σ
  | .null, w => P.null v w
  | .bool b, w => P.boolean v b w
  | .num l, w => driveNumR P v l w
  | .str s, w => P.string v s w
  | .arr xs, w =>
    match P.seq v w with
    | (.ok q, w) => ((driveElemsR q xs w).1, P.dropSeq q (driveElemsR q xs w).2)
    | (.err, w) => (.err, w)
    | (.panic, w) => (.panic, w)
  | .obj ms, w =>
    match P.map v w with
    | (.ok m, w) => ((driveMembersR m ms w).1, P.dropMap m (driveMembersR m ms w).2)
    | (.err, w) => (.err, w)
    | (.panic, w) => (.panic, w)

def driveElemsR (q : P.Q) : List Json → σ → Res Unit × σ
  | [], w => P.seqFinish q w
  | x :: xs, w =>
    match P.element q w with
    | (.ok v, w) =>
      match driveR v x w with
      | (.ok _, w) => driveElemsR q xs w
      | (.err, w) => (.err, w)
      | (.panic, w) => (.panic, w)
    | (.err, w) => (.err, w)
    | (.panic, w) => (.panic, w)

def driveMembersR (m : P.M) : List (Bytes × Json) → σ → Res Unit × σ
  | [], w => P.mapFinish m w
  | (k, x) :: ms, w =>
    match P.key m k w with
    | (.ok v, w) =>
      match driveR v x w with
      | (.ok _, w) => driveMembersR m ms w
      | (.err, w) => (.err, w)
      | (.panic, w) => (.panic, w)
    | (.err, w) => (.err, w)
    | (.panic, w) => (.panic, w)

end
end

mutual

/-- Every number literal in the tree is shorter than 2 GiB. -/
def Json.ShortNums : Json → Prop
  | .null => True
  | .bool _ => True
  | .num l => l.text.length < 2147483648
  | .str _ => True
  | .arr xs => Json.ShortNumsL xs
  | .obj ms => Json.ShortNumsM ms

def Json.ShortNumsL : List Json → Prop
  | [] => True
  | x :: xs => x.ShortNums ∧ Json.ShortNumsL xs

def Json.ShortNumsM : List (Bytes × Json) → Prop
  | [] => True
  | (_, x) :: ms => x.ShortNums ∧ Json.ShortNumsM ms

end

end Miniserde
