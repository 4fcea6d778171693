import Verif.Model.Driver

/-!
# Counting the calls of a visitor (C74)
-/

namespace Miniserde

variable {σ : Type}

/-- `μ` grows by at most one with each call of a method of the protocol `P`. -/
structure Proto.Counts (P : Proto σ) (μ : σ → Nat) : Prop where
  null : ∀ v w, μ (P.null v w).2 ≤ μ w + 1
  boolean : ∀ v b w, μ (P.boolean v b w).2 ≤ μ w + 1
  string : ∀ v s w, μ (P.string v s w).2 ≤ μ w + 1
  negative : ∀ v n w, μ (P.negative v n w).2 ≤ μ w + 1
  nonnegative : ∀ v n w, μ (P.nonnegative v n w).2 ≤ μ w + 1
  float : ∀ v f w, μ (P.float v f w).2 ≤ μ w + 1
  seq : ∀ v w, μ (P.seq v w).2 ≤ μ w + 1
  map : ∀ v w, μ (P.map v w).2 ≤ μ w + 1
  element : ∀ q w, μ (P.element q w).2 ≤ μ w + 1
  seqFinish : ∀ q w, μ (P.seqFinish q w).2 ≤ μ w + 1
  key : ∀ m k w, μ (P.key m k w).2 ≤ μ w + 1
  mapFinish : ∀ m w, μ (P.mapFinish m w).2 ≤ μ w + 1
  dropSeq : ∀ q w, μ (P.dropSeq q w) ≤ μ w + 1
  dropMap : ∀ m w, μ (P.dropMap m w) ≤ μ w + 1

end Miniserde
