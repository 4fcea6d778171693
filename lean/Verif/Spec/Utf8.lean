import Verif.Spec.Json
import Verif.Model.Driver

/-!
# Well-formed UTF-8

A Rust `&str` is a byte string that is well-formed UTF-8: the concatenation of the encodings of some Unicode
scalar values (`Char`).
-/

namespace Miniserde

/-- The bytes of a list of characters. -/
def utf8s (cs : List Char) : Bytes := cs.flatMap utf8Of

/-- Well-formed UTF-8. -/
def ValidUtf8 (bs : Bytes) : Prop := ∃ cs : List Char, bs = utf8s cs

open Classical in
/-- The protocol `P`, except that it panics when it is handed a string that is not well-formed UTF-8. -/
noncomputable def Proto.checkUtf8 {σ : Type} (P : Proto σ) : Proto σ :=
  { P with
    string := fun v s w => if ValidUtf8 s then P.string v s w else (.panic, w)
    key := fun m k w => if ValidUtf8 k then P.key m k w else (.panic, w) }

end Miniserde
