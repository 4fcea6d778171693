import Verif.Model.Fmt

/-!
# `Debug` through `core`'s formatting machinery, for `{:?}` and `{:#?}`

A `Formatter` is a state `σ` with a `write_str`; `alt` is its `alternate` flag.  With `{:#?}`, `DebugList` and `DebugMap` write their entries through a
`PadAdapter` around the formatter, which puts four spaces at the start of every line.  `core::fmt::builders` is not in `/repo`; its code is modelled here
from the standard library because the text of `{:#?}` (tested in `tests/test_value.rs:22-58`) is the result of both.  The `Debug` of `str` is a parameter:
`strWrites s` are the successive `write_str` calls it makes.
-/

namespace Miniserde

/-- `str::split_inclusive('\n')`. Used by `{:#?}` of `src/json/value.rs:46-57`. -/
def splitNl : Bytes → List Bytes
  | [] => []
  | c :: s =>
    if c = 0x0A then [c] :: splitNl s
    else match splitNl s with
      | [] => [[c]]
      | p :: ps => (c :: p) :: ps

/-- One piece in `PadAdapter::write_str`: indent if at the start of a line, remember whether a line has ended, pass the piece on. Used by `{:#?}` of `src/json/array.rs:100-105`, `src/json/object.rs:94-99`. -/
def padPiece {σ : Type} (w : σ → Bytes → σ) (st : Bool × σ) (piece : Bytes) : Bool × σ :=
  let s := if st.1 then w st.2 (str! "    ") else st.2
  (piece.getLast? == some 0x0A, w s piece)

/-- `core::fmt::builders::PadAdapter::write_str`. The state is `on_newline` and that of the formatter inside. Used by `{:#?}` of `src/json/array.rs:100-105`, `src/json/object.rs:94-99`. -/
def padWrite {σ : Type} (w : σ → Bytes → σ) (st : Bool × σ) (x : Bytes) : Bool × σ := (splitNl x).foldl (padPiece w) st

section
variable (ryu : F64 → Bytes) (strWrites : Bytes → List Bytes) (alt : Bool)

mutual

/-- `src/json/value.rs:46-57`, `src/json/array.rs:100-105`, `src/json/object.rs:94-99`: `Debug::fmt` of `Value`, `Array` and `Object` on a formatter. The
arguments of `write!` are formatted with a fresh specification, so that the alternate flag does not reach them; they are written in order. -/
def fmtValue : Val → {σ : Type} → (σ → Bytes → σ) → σ → σ
  | .null, _, w, s => w s (str! "Null")
  | .bool b, _, w, s => w (w (w s (str! "Bool(")) (if b then str! "true" else str! "false")) (str! ")")
  | .numU n, _, w, s => w (w (w s (str! "Number(")) (displayNumber ryu (.numU n))) (str! ")")
  | .numI n, _, w, s => w (w (w s (str! "Number(")) (displayNumber ryu (.numI n))) (str! ")")
  | .numF n, _, w, s => w (w (w s (str! "Number(")) (displayNumber ryu (.numF n))) (str! ")")
  | .str x, _, w, s => w ((strWrites x).foldl w (w s (str! "String("))) (str! ")")
  | .seq vs, _, w, s => w (fmtEntries vs false w (w (w s (str! "Array ")) (str! "["))) (str! "]")
  | .map ms, _, w, s => w (fmtMembers ms false w (w (w s (str! "Object ")) (str! "{"))) (str! "}")
  | _, _, _, s => s

/-- `core::fmt::builders::DebugList::entries`; `has` is `has_fields`. `src/json/array.rs:100-105`. -/
def fmtEntries : List Val → Bool → {σ : Type} → (σ → Bytes → σ) → σ → σ
  | [], _, _, _, s => s
  | v :: vs, has, _, w, s =>
    if alt then
      let s := if has then s else w s (str! "\n")
      let st := padWrite w (fmtValue v (padWrite w) (true, s)) (str! ",\n")
      fmtEntries vs true w st.2
    else
      let s := if has then w s (str! ", ") else s
      fmtEntries vs true w (fmtValue v w s)

/-- `core::fmt::builders::DebugMap::entries`: for each entry `key`, then `value` through an adapter in the same state. `src/json/object.rs:94-99`. -/
def fmtMembers : List (Bytes × Val) → Bool → {σ : Type} → (σ → Bytes → σ) → σ → σ
  | [], _, _, _, s => s
  | (k, v) :: ms, has, _, w, s =>
    if alt then
      let s := if has then s else w s (str! "\n")
      let st := padWrite w ((strWrites k).foldl (padWrite w) (true, s)) (str! ": ")
      let st := padWrite w (fmtValue v (padWrite w) st) (str! ",\n")
      fmtMembers ms true w st.2
    else
      let s := if has then w s (str! ", ") else s
      let s := w ((strWrites k).foldl w s) (str! ": ")
      fmtMembers ms true w (fmtValue v w s)

end

/-- `format!("{:?}", v)` and, with `alt`, `format!("{:#?}", v)`: the formatter writes to a string. `src/json/value.rs:46-57`. -/
def formatDebug (v : Val) : Bytes := fmtValue ryu strWrites alt v (fun s x => s ++ x) []

/-- `src/json/number.rs:7-12`: the derived `Debug` of `Number`, one field in parentheses (`core::fmt::builders::DebugTuple`). The `Debug` of an integer or
a float is a parameter. -/
def formatNumberDebug (numDebug : Val → Bytes) : Val → Bytes
  | v@(.numU _) => tuple (str! "U64") v
  | v@(.numI _) => tuple (str! "I64") v
  | v@(.numF _) => tuple (str! "F64") v
  | _ => []
where
  /-- `DebugTuple` with one field. -/
  tuple (name : Bytes) (v : Val) : Bytes :=
    if alt then
      let s := name ++ str! "(\n"
      let st := padWrite (fun s x => s ++ x) (padWrite (fun s x => s ++ x) (true, s) (numDebug v)) (str! ",\n")
      st.2 ++ str! ")"
    else name ++ (str! "(") ++ numDebug v ++ str! ")"

end

end Miniserde
