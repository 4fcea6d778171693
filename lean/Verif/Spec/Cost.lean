import Verif.Model.Driver
import Verif.Spec.Encode
import Verif.Spec.Json

/-!
# Resources

What parsing asks of a visitor, measured by wrapping the visitor; the size of a value.
-/

namespace Miniserde

/-- Counters. -/
structure Meter where
  /-- calls of methods of `Visitor`, `Seq`, `Map` -/
  calls : Nat := 0
  /-- total length of the strings and keys handed over -/
  bytes : Nat := 0
  /-- builders created and not yet dropped -/
  live : Nat := 0
  /-- largest value of `live` so far -/
  peak : Nat := 0

/-- A call with a string of length `n`. -/
def Meter.call (μ : Meter) (n : Nat) : Meter := { μ with calls := μ.calls + 1, bytes := μ.bytes + n }

/-- A call that returns a builder, or fails. -/
def Meter.opens {α : Type} (μ : Meter) (r : Res α) : Meter :=
  match r with
  | .ok _ => { μ.call 0 with live := μ.live + 1, peak := max μ.peak (μ.live + 1) }
  | _ => μ.call 0

/-- A builder is dropped. -/
def Meter.drops (μ : Meter) : Meter := { μ with live := μ.live - 1 }

/-- The visitor `P` with counters. -/
def Proto.metered {σ : Type} (P : Proto σ) : Proto (σ × Meter) where
  V := P.V
  Q := P.Q
  M := P.M
  null v w := ((P.null v w.1).1, (P.null v w.1).2, w.2.call 0)
  boolean v b w := ((P.boolean v b w.1).1, (P.boolean v b w.1).2, w.2.call 0)
  string v s w := ((P.string v s w.1).1, (P.string v s w.1).2, w.2.call s.length)
  negative v n w := ((P.negative v n w.1).1, (P.negative v n w.1).2, w.2.call 0)
  nonnegative v n w := ((P.nonnegative v n w.1).1, (P.nonnegative v n w.1).2, w.2.call 0)
  float v n w := ((P.float v n w.1).1, (P.float v n w.1).2, w.2.call 0)
  seq v w := ((P.seq v w.1).1, (P.seq v w.1).2, w.2.opens (P.seq v w.1).1)
  map v w := ((P.map v w.1).1, (P.map v w.1).2, w.2.opens (P.map v w.1).1)
  element q w := ((P.element q w.1).1, (P.element q w.1).2, w.2.call 0)
  seqFinish q w := ((P.seqFinish q w.1).1, (P.seqFinish q w.1).2, w.2.call 0)
  key m k w := ((P.key m k w.1).1, (P.key m k w.1).2, w.2.call k.length)
  mapFinish m w := ((P.mapFinish m w.1).1, (P.mapFinish m w.1).2, w.2.call 0)
  dropSeq q w := (P.dropSeq q w.1, w.2.drops)
  dropMap m w := (P.dropMap m w.1, w.2.drops)

mutual

/-- The size of a value: bytes of its strings and keys, elements of its sequences, entries of its maps. -/
def Val.size : Val → Nat
  | .str s => s.length
  | .seq vs => Val.sizeL vs
  | .map ms => Val.sizeM ms
  | .optSome v => v.size
  | .box v => v.size
  | .strct vs => Val.sizeF vs
  | _ => 0

/-- Elements of a sequence. -/
def Val.sizeL : List Val → Nat
  | [] => 0
  | v :: vs => (v.size + 1) + Val.sizeL vs

/-- Entries of a map. -/
def Val.sizeM : List (Bytes × Val) → Nat
  | [] => 0
  | (k, v) :: ms => (k.length + v.size + 1) + Val.sizeM ms

/-- Fields of a struct. -/
def Val.sizeF : List Val → Nat
  | [] => 0
  | v :: vs => v.size + Val.sizeF vs

end

/-- Parsing a key does not make it longer (`String` keys are unchanged). -/
def Env.KeysShrink (E : Env) : Prop := ∀ k s key, E.keyParse k s = some key → key.length ≤ s.length

mutual

/-- The calls a document needs: one per scalar, two per array or object (`seq`/`map` and `finish`), one per element or member. -/
def Json.calls : Json → Nat
  | .arr xs => 2 + Json.callsAll xs
  | .obj ms => 2 + Json.callsMembers ms
  | _ => 1

/-- For elements. -/
def Json.callsAll : List Json → Nat
  | [] => 0
  | x :: xs => 1 + x.calls + Json.callsAll xs

/-- For members. -/
def Json.callsMembers : List (Bytes × Json) → Nat
  | [] => 0
  | (_, x) :: ms => 1 + x.calls + Json.callsMembers ms

end

mutual

/-- The total length of the strings and keys of a document. -/
def Json.strBytes : Json → Nat
  | .str s => s.length
  | .arr xs => Json.strBytesAll xs
  | .obj ms => Json.strBytesMembers ms
  | _ => 0

/-- In elements. -/
def Json.strBytesAll : List Json → Nat
  | [] => 0
  | x :: xs => x.strBytes + Json.strBytesAll xs

/-- In members. -/
def Json.strBytesMembers : List (Bytes × Json) → Nat
  | [] => 0
  | (k, x) :: ms => k.length + x.strBytes + Json.strBytesMembers ms

end

mutual

/-- How deep arrays and objects are nested. -/
def Json.nest : Json → Nat
  | .arr xs => 1 + Json.nestAll xs
  | .obj ms => 1 + Json.nestMembers ms
  | _ => 0

/-- The deepest element. -/
def Json.nestAll : List Json → Nat
  | [] => 0
  | x :: xs => max x.nest (Json.nestAll xs)

/-- The deepest member. -/
def Json.nestMembers : List (Bytes × Json) → Nat
  | [] => 0
  | (_, x) :: ms => max x.nest (Json.nestMembers ms)

end

end Miniserde
