import Verif.Spec.SerCost

/-!
# Counting the calls of an implementation of `Serialize` (C80)
-/

namespace Miniserde

/-- `μ` grows by at most one with each call of a method of the implementation `P`. -/
structure SProto.Counts {σ : Type} (P : SProto σ) (μ : σ → Nat) : Prop where
  begin : ∀ s w, μ (P.begin s w).2 ≤ μ w + 1
  seqNext : ∀ q w, μ (P.seqNext q w).2 ≤ μ w + 1
  mapNext : ∀ m w, μ (P.mapNext m w).2 ≤ μ w + 1
  dropSeq : ∀ q w, μ (P.dropSeq q w) ≤ μ w + 1
  dropMap : ∀ m w, μ (P.dropMap m w) ≤ μ w + 1

mutual

/-- The bytes of the strings and keys of a tree. -/
def FTree.strBytes : FTree → Nat
  | .str s => s.length
  | .seq ts => FTree.strBytesL ts
  | .map ms => FTree.strBytesM ms
  | _ => 0

def FTree.strBytesL : List FTree → Nat
  | [] => 0
  | t :: ts => t.strBytes + FTree.strBytesL ts

def FTree.strBytesM : List (Bytes × FTree) → Nat
  | [] => 0
  | (k, t) :: ms => k.length + t.strBytes + FTree.strBytesM ms

end

mutual

/-- The sequences and maps of a tree that have an element. -/
def FTree.nonEmpty : FTree → Nat
  | .seq [] => 0
  | .seq (t :: ts) => 1 + t.nonEmpty + FTree.nonEmptyL ts
  | .map [] => 0
  | .map ((_, t) :: ms) => 1 + t.nonEmpty + FTree.nonEmptyM ms
  | _ => 0

def FTree.nonEmptyL : List FTree → Nat
  | [] => 0
  | t :: ts => t.nonEmpty + FTree.nonEmptyL ts

def FTree.nonEmptyM : List (Bytes × FTree) → Nat
  | [] => 0
  | (_, t) :: ms => t.nonEmpty + FTree.nonEmptyM ms

end

end Miniserde
