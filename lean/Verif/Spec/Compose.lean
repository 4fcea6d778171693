import Verif.Spec.Ser

/-!
# Putting texts together
-/

namespace Miniserde

/-- The texts, separated by commas. -/
def joined : List Bytes → Bytes
  | [] => []
  | [s] => s
  | s :: ss => s ++ 0x2C :: joined ss

/-- `[s₁,s₂,...]` -/
def arrayText (ss : List Bytes) : Bytes := 0x5B :: (joined ss ++ [0x5D])

/-- `"key":s` -/
def memberText (m : Bytes × Bytes) : Bytes := quoted m.1 ++ 0x3A :: m.2

/-- `{"k₁":s₁,"k₂":s₂,...}` -/
def objectText (ms : List (Bytes × Bytes)) : Bytes := 0x7B :: (joined (ms.map memberText) ++ [0x7D])

/-- The lists are equally long and corresponding elements are related. -/
inductive Each {α β : Type} (R : α → β → Prop) : List α → List β → Prop
  | nil : Each R [] []
  | cons {a : α} {b : β} {as : List α} {bs : List β} (h : R a b) (hs : Each R as bs) : Each R (a :: as) (b :: bs)

end Miniserde
