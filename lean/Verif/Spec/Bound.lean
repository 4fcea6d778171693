import Verif.Model.Bound

/-!
# When does an impl apply?

An instantiation says which lifetimes outlive which, which types (by parameter name) implement which trait and outlive which lifetime, and which other
predicates hold.
-/

namespace Miniserde

structure Inst where
  outlives : Bytes → Bytes → Prop
  tyOutlives : Bytes → Bytes → Prop
  implements : Bytes → Bytes → Prop
  other : Bytes → Prop

/-- The bound holds of the type given for the parameter. -/
def Inst.bound (I : Inst) (param : Bytes) : TBound → Prop
  | .trait t => I.implements param t
  | .lifetime l => I.tyOutlives param l

/-- The bounds in the parameter list hold. -/
def Inst.param (I : Inst) : GParam → Prop
  | .lifetime n bs => ∀ l ∈ bs, I.outlives n l
  | .type n bs => ∀ t ∈ bs, I.bound n t
  | .const _ _ => True

/-- The where-predicate holds. -/
def Inst.pred (I : Inst) : WPred → Prop
  | .bound p t => I.bound p t
  | .other t => I.other t

/-- An item with these generics may be used at the instantiation. -/
def Inst.holds (I : Inst) (g : Generics) : Prop :=
  (∀ p ∈ g.params, I.param p) ∧ ∀ w ∈ g.whereClause.getD [], I.pred w

/-- The name of a parameter. -/
def GParam.name : GParam → Bytes
  | .lifetime n _ => n
  | .type n _ => n
  | .const n _ => n

def GParam.isLifetime : GParam → Bool
  | .lifetime _ _ => true
  | _ => false

def GParam.isType : GParam → Bool
  | .type _ _ => true
  | _ => false

/-- Rust's order: lifetimes before types and constants. -/
def Ordered (ps : List GParam) : Prop := ps.Pairwise fun p q => q.isLifetime = true → p.isLifetime = true

end Miniserde
