import Verif.Spec.Ser

/-!
# What serialization asks of a `Serialize` implementation

Measured by wrapping the implementation.
-/

namespace Miniserde

/-- Counters. -/
structure SMeter where
  /-- calls of `Serialize::begin` -/
  begins : Nat := 0
  /-- calls of `Seq::next` and `Map::next` -/
  nexts : Nat := 0
  /-- streams created and not yet dropped -/
  live : Nat := 0
  /-- largest value of `live` so far -/
  peak : Nat := 0

/-- `begin` was called. -/
def SMeter.begun {Q M : Type} (μ : SMeter) : Option (Frag Q M) → SMeter
  | some (.seq _) | some (.map _) => ⟨μ.begins + 1, μ.nexts, μ.live + 1, max μ.peak (μ.live + 1)⟩
  | _ => { μ with begins := μ.begins + 1 }

/-- `next` was called. -/
def SMeter.asked (μ : SMeter) : SMeter := { μ with nexts := μ.nexts + 1 }

/-- A stream was dropped. -/
def SMeter.drops (μ : SMeter) : SMeter := { μ with live := μ.live - 1 }

/-- The implementation `P` with counters. -/
def SProto.metered {σ : Type} (P : SProto σ) : SProto (σ × SMeter) where
  S := P.S
  Q := P.Q
  M := P.M
  begin s w := ((P.begin s w.1).1, (P.begin s w.1).2, w.2.begun (P.begin s w.1).1)
  seqNext q w := ((P.seqNext q w.1).1, (P.seqNext q w.1).2, w.2.asked)
  mapNext m w := ((P.mapNext m w.1).1, (P.mapNext m w.1).2, w.2.asked)
  dropSeq q w := (P.dropSeq q w.1, w.2.drops)
  dropMap m w := (P.dropMap m w.1, w.2.drops)

mutual

/-- Number of sequences and maps in a tree. -/
def FTree.containers : FTree → Nat
  | .seq ts => FTree.containersL ts + 1
  | .map ms => FTree.containersM ms + 1
  | _ => 0

def FTree.containersL : List FTree → Nat
  | [] => 0
  | t :: ts => t.containers + FTree.containersL ts

def FTree.containersM : List (Bytes × FTree) → Nat
  | [] => 0
  | (_, t) :: ms => t.containers + FTree.containersM ms

end

mutual

/-- Nesting depth of sequences and maps in a tree. -/
def FTree.depth : FTree → Nat
  | .seq ts => FTree.depthL ts + 1
  | .map ms => FTree.depthM ms + 1
  | _ => 0

def FTree.depthL : List FTree → Nat
  | [] => 0
  | t :: ts => max t.depth (FTree.depthL ts)

def FTree.depthM : List (Bytes × FTree) → Nat
  | [] => 0
  | (_, t) :: ms => max t.depth (FTree.depthM ms)

end

end Miniserde
