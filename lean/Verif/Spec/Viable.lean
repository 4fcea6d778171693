import Verif.Model.Driver

/-!
# What a visitor sees

The record of the calls made to the implementation of `Visitor`, `Seq` and `Map` behind a run (destructors are not calls of these traits).
-/

namespace Miniserde

/-- One call of a method of `Visitor`, `Seq` or `Map`, with its argument. -/
inductive Seen where
  | null
  | boolean (b : Bool)
  | string (s : Bytes)
  | negative (n : Int)
  | nonnegative (n : Nat)
  | float (x : F64)
  | seq
  | map
  | element
  | seqFinish
  | key (k : Bytes)
  | mapFinish
  deriving DecidableEq

/-- `P`, recording the calls it gets. -/
def Proto.recording {σ : Type} (P : Proto σ) : Proto (σ × List Seen) where
  V := P.V
  Q := P.Q
  M := P.M
  null v w := ((P.null v w.1).1, (P.null v w.1).2, w.2 ++ [.null])
  boolean v b w := ((P.boolean v b w.1).1, (P.boolean v b w.1).2, w.2 ++ [.boolean b])
  string v s w := ((P.string v s w.1).1, (P.string v s w.1).2, w.2 ++ [.string s])
  negative v n w := ((P.negative v n w.1).1, (P.negative v n w.1).2, w.2 ++ [.negative n])
  nonnegative v n w := ((P.nonnegative v n w.1).1, (P.nonnegative v n w.1).2, w.2 ++ [.nonnegative n])
  float v x w := ((P.float v x w.1).1, (P.float v x w.1).2, w.2 ++ [.float x])
  seq v w := ((P.seq v w.1).1, (P.seq v w.1).2, w.2 ++ [.seq])
  map v w := ((P.map v w.1).1, (P.map v w.1).2, w.2 ++ [.map])
  element q w := ((P.element q w.1).1, (P.element q w.1).2, w.2 ++ [.element])
  seqFinish q w := ((P.seqFinish q w.1).1, (P.seqFinish q w.1).2, w.2 ++ [.seqFinish])
  key m k w := ((P.key m k w.1).1, (P.key m k w.1).2, w.2 ++ [.key k])
  mapFinish m w := ((P.mapFinish m w.1).1, (P.mapFinish m w.1).2, w.2 ++ [.mapFinish])
  dropSeq q w := (P.dropSeq q w.1, w.2)
  dropMap m w := (P.dropMap m w.1, w.2)

/-- The calls made while parsing `s` into the visitor `v` of `P`. -/
def seen {σ : Type} (P : Proto σ) (v : P.V) (w : σ) (s : Bytes) : List Seen :=
  match fromStrImpl P.recording s v (w, []) with
  | some r => r.2.2
  | none => []

/-- The visitor that accepts everything. -/
def acceptAll : Proto Unit where
  V := Unit
  Q := Unit
  M := Unit
  null := fun _ w => (.ok (), w)
  boolean := fun _ _ w => (.ok (), w)
  string := fun _ _ w => (.ok (), w)
  negative := fun _ _ w => (.ok (), w)
  nonnegative := fun _ _ w => (.ok (), w)
  float := fun _ _ w => (.ok (), w)
  seq := fun _ w => (.ok (), w)
  map := fun _ w => (.ok (), w)
  element := fun _ w => (.ok (), w)
  seqFinish := fun _ w => (.ok (), w)
  key := fun _ _ w => (.ok (), w)
  mapFinish := fun _ w => (.ok (), w)
  dropSeq := fun _ w => w
  dropMap := fun _ w => w

end Miniserde
