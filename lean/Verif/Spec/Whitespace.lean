import Verif.Spec.Json

/-!
# Positions between tokens

Where whitespace may be inserted in an arbitrary input, well-formed or not: not inside a string literal, and not between two bytes that
could belong to the same number or keyword.
-/

namespace Miniserde

/-- Lexical context: outside of string literals, inside one, inside one just after a backslash. -/
inductive LexState where
  | out
  | str
  | esc
  deriving DecidableEq

/-- A quote opens and closes literals; inside, a backslash protects the next byte. -/
def LexState.step : LexState → UInt8 → LexState
  | .out, c => if c = 0x22 then .str else .out
  | .str, c => if c = 0x22 then .out else if c = 0x5C then .esc else .str
  | .esc, _ => .str

/-- The context after reading some bytes. -/
def LexState.scan (s : LexState) (bs : Bytes) : LexState := bs.foldl LexState.step s

/-- Bytes that are neither whitespace nor `[ ] { } , : "`: those of numbers and keywords (and stray ones). -/
def WordByte (c : UInt8) : Prop :=
  ¬ (c = 0x20 ∨ c = 0x09 ∨ c = 0x0A ∨ c = 0x0D) ∧
  ¬ (c = 0x5B ∨ c = 0x5D ∨ c = 0x7B ∨ c = 0x7D ∨ c = 0x2C ∨ c = 0x3A ∨ c = 0x22)

/-- The position between `u` and `v` in the input `u ++ v` is between two tokens (or at either end): it is outside of string literals, and not in
the middle of a word. -/
def BetweenTokens (u v : Bytes) : Prop :=
  LexState.scan .out u = .out ∧ ∀ a c, u.getLast? = some a → v.head? = some c → ¬ (WordByte a ∧ WordByte c)

end Miniserde
