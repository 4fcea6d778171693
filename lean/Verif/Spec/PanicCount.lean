import Verif.Model.Unwind
import Verif.Model.SerUnwind

/-!
# Counting panics

The outcome of a run (`UOut`, `SUOut`) compared with the panics that really happened in it.
-/

namespace Miniserde
variable {σ : Type}

/-- 1 for a panic. -/
def Res.panics {α : Type} : Res α → Nat
  | .panic => 1
  | _ => 0

/-- `count` is the number of panics in user code so far: a call adds one exactly if it panics, a destructor exactly if it panics. -/
structure CountsPanics (P : Proto σ) (bomb : Layer P → σ → Bool) (count : σ → Nat) : Prop where
  null : ∀ v w, count (P.null v w).2 = count w + (P.null v w).1.panics
  boolean : ∀ v b w, count (P.boolean v b w).2 = count w + (P.boolean v b w).1.panics
  string : ∀ v s w, count (P.string v s w).2 = count w + (P.string v s w).1.panics
  negative : ∀ v n w, count (P.negative v n w).2 = count w + (P.negative v n w).1.panics
  nonnegative : ∀ v n w, count (P.nonnegative v n w).2 = count w + (P.nonnegative v n w).1.panics
  float : ∀ v f w, count (P.float v f w).2 = count w + (P.float v f w).1.panics
  seq : ∀ v w, count (P.seq v w).2 = count w + (P.seq v w).1.panics
  map : ∀ v w, count (P.map v w).2 = count w + (P.map v w).1.panics
  element : ∀ q w, count (P.element q w).2 = count w + (P.element q w).1.panics
  seqFinish : ∀ q w, count (P.seqFinish q w).2 = count w + (P.seqFinish q w).1.panics
  key : ∀ m k w, count (P.key m k w).2 = count w + (P.key m k w).1.panics
  mapFinish : ∀ m w, count (P.mapFinish m w).2 = count w + (P.mapFinish m w).1.panics
  drop : ∀ l w, count (Layer.drop l w) = count w + if bomb l w then 1 else 0

/-- How many panics there are in a run with this outcome. -/
def UOut.panics : UOut → Nat
  | .ok => 0
  | .err => 0
  | .panic => 1
  | .cleanup _ false => 1
  | .cleanup _ true => 2
  | .abort => 2

/-- The given implementation, with a counter of panics added to its world. -/
def Proto.counted (P : Proto σ) (bomb : Layer P → σ → Bool) : Proto (σ × Nat) where
  V := P.V
  Q := P.Q
  M := P.M
  null v w := ((P.null v w.1).1, ((P.null v w.1).2, w.2 + (P.null v w.1).1.panics))
  boolean v b w := ((P.boolean v b w.1).1, ((P.boolean v b w.1).2, w.2 + (P.boolean v b w.1).1.panics))
  string v s w := ((P.string v s w.1).1, ((P.string v s w.1).2, w.2 + (P.string v s w.1).1.panics))
  negative v n w := ((P.negative v n w.1).1, ((P.negative v n w.1).2, w.2 + (P.negative v n w.1).1.panics))
  nonnegative v n w := ((P.nonnegative v n w.1).1, ((P.nonnegative v n w.1).2, w.2 + (P.nonnegative v n w.1).1.panics))
  float v f w := ((P.float v f w.1).1, ((P.float v f w.1).2, w.2 + (P.float v f w.1).1.panics))
  seq v w := ((P.seq v w.1).1, ((P.seq v w.1).2, w.2 + (P.seq v w.1).1.panics))
  map v w := ((P.map v w.1).1, ((P.map v w.1).2, w.2 + (P.map v w.1).1.panics))
  element q w := ((P.element q w.1).1, ((P.element q w.1).2, w.2 + (P.element q w.1).1.panics))
  seqFinish q w := ((P.seqFinish q w.1).1, ((P.seqFinish q w.1).2, w.2 + (P.seqFinish q w.1).1.panics))
  key m k w := ((P.key m k w.1).1, ((P.key m k w.1).2, w.2 + (P.key m k w.1).1.panics))
  mapFinish m w := ((P.mapFinish m w.1).1, ((P.mapFinish m w.1).2, w.2 + (P.mapFinish m w.1).1.panics))
  dropSeq q w := (P.dropSeq q w.1, w.2 + if bomb (.seq q) w.1 then 1 else 0)
  dropMap m w := (P.dropMap m w.1, w.2 + if bomb (.map m) w.1 then 1 else 0)

/-- A layer of the counted implementation is a layer of the original. -/
def Layer.uncount {P : Proto σ} {bomb : Layer P → σ → Bool} : Layer (P.counted bomb) → Layer P
  | .seq q => .seq q
  | .map m => .map m

/-- Every implementation can be instrumented in this way. -/
theorem counted_counts (P : Proto σ) (bomb : Layer P → σ → Bool) :
    CountsPanics (P.counted bomb) (fun l w => bomb l.uncount w.1) Prod.snd := by
  refine ⟨?_, ?_, ?_, ?_, ?_, ?_, ?_, ?_, ?_, ?_, ?_, ?_, ?_⟩ <;> intros
  all_goals first | rfl | skip
  rename_i l w
  cases l <;> rfl

/-- The same for serialization. -/
structure CountsPanicsS (P : SProto σ) (bomb : SLayer P → σ → Bool) (count : σ → Nat) : Prop where
  begin : ∀ s w, count (P.begin s w).2 = count w + if (P.begin s w).1.isNone then 1 else 0
  seqNext : ∀ q w, count (P.seqNext q w).2 = count w + if (P.seqNext q w).1.isNone then 1 else 0
  mapNext : ∀ m w, count (P.mapNext m w).2 = count w + if (P.mapNext m w).1.isNone then 1 else 0
  drop : ∀ l w, count (SLayer.drop l w) = count w + if bomb l w then 1 else 0

def SUOut.panics : SUOut → Nat
  | .ok _ => 0
  | .panic => 1
  | .abort => 2

end Miniserde
