import Verif.Model.Driver

/-!
# A concrete protocol for the non-vacuity examples

`tracer` accepts everything and records the calls it receives, most recent last.
-/

namespace Miniserde

/-- One recorded call. -/
inductive Call where
  | null | bool (b : Bool) | string (s : Bytes) | negative (n : Int) | nonnegative (n : Nat) | float
  | seq | map | element | key (k : Bytes) | seqFinish | mapFinish | dropSeq | dropMap
  deriving DecidableEq, Repr

/-- Record every call. -/
def tracer : Proto (List Call) where
  V := Unit
  Q := Unit
  M := Unit
  null := fun _ w => (.ok (), w ++ [.null])
  boolean := fun _ b w => (.ok (), w ++ [.bool b])
  string := fun _ s w => (.ok (), w ++ [.string s])
  negative := fun _ n w => (.ok (), w ++ [.negative n])
  nonnegative := fun _ n w => (.ok (), w ++ [.nonnegative n])
  float := fun _ _ w => (.ok (), w ++ [.float])
  seq := fun _ w => (.ok (), w ++ [.seq])
  map := fun _ w => (.ok (), w ++ [.map])
  element := fun _ w => (.ok (), w ++ [.element])
  seqFinish := fun _ w => (.ok (), w ++ [.seqFinish])
  key := fun _ k w => (.ok (), w ++ [.key k])
  mapFinish := fun _ w => (.ok (), w ++ [.mapFinish])
  dropSeq := fun _ w => w ++ [.dropSeq]
  dropMap := fun _ w => w ++ [.dropMap]

end Miniserde
