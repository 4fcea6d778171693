import Verif.Model.Driver
import Verif.Spec.Number

/-!
# The traversal of a syntax tree

`drive P v t` is the depth-first, left-to-right traversal of the JSON tree `t` by the visitor `v` of the protocol `P`
(an arbitrary implementation of the traits `Visitor`, `Seq`, `Map`): one leaf call per scalar, `seq`/`map` at an
opening bracket, `element`/`key` before each child, `finish` after the last child, and the builder is dropped when
it is finished or when something below it fails.  The first failure stops the traversal.
-/

namespace Miniserde
variable {σ : Type} (P : Proto σ)

/-- The leaf call for a number literal: `negative`, `nonnegative` or `float` with the delivered value; a literal that does
not fit makes the traversal fail without a call. -/
def driveNum (v : P.V) (l : NumLit) (w : σ) : Res Unit × σ :=
  match numEvent l with
  | .ok (.negative n) => P.negative v n w
  | .ok (.nonnegative n) => P.nonnegative v n w
  | .ok (.float f) => P.float v f w
  | .err => (.err, w)
  | _ => (.panic, w)

mutual

/-- Traverse one value. -/
def drive (v : P.V) : Json → σ → Res Unit × σ
  | .null, w => P.null v w
  | .bool b, w => P.boolean v b w
  | .num l, w => driveNum P v l w
  | .str s, w => P.string v s w
  | .arr xs, w =>
    match P.seq v w with
    | (.ok q, w) => ((driveElems q xs w).1, P.dropSeq q (driveElems q xs w).2)
    | (.err, w) => (.err, w)
    | (.panic, w) => (.panic, w)
  | .obj ms, w =>
    match P.map v w with
    | (.ok m, w) => ((driveMembers m ms w).1, P.dropMap m (driveMembers m ms w).2)
    | (.err, w) => (.err, w)
    | (.panic, w) => (.panic, w)

/-- Traverse the remaining elements of an array. -/
def driveElems (q : P.Q) : List Json → σ → Res Unit × σ
  | [], w => P.seqFinish q w
  | x :: xs, w =>
    match P.element q w with
    | (.ok v, w) =>
      match drive v x w with
      | (.ok _, w) => driveElems q xs w
      | (.err, w) => (.err, w)
      | (.panic, w) => (.panic, w)
    | (.err, w) => (.err, w)
    | (.panic, w) => (.panic, w)

/-- Traverse the remaining members of an object. -/
def driveMembers (m : P.M) : List (Bytes × Json) → σ → Res Unit × σ
  | [], w => P.mapFinish m w
  | (k, x) :: ms, w =>
    match P.key m k w with
    | (.ok v, w) =>
      match drive v x w with
      | (.ok _, w) => driveMembers m ms w
      | (.err, w) => (.err, w)
      | (.panic, w) => (.panic, w)
    | (.err, w) => (.err, w)
    | (.panic, w) => (.panic, w)

end

end Miniserde
