import Verif.Spec.Fmt

/-!
# What `{:#?}` of a `Value` should say
-/

namespace Miniserde

/-- `n` levels of indentation, four spaces each. -/
def indent (n : Nat) : Bytes := List.replicate (4 * n) 0x20

/-- Every text on a line of its own at level `n`, with a comma at the end. -/
def onLines (n : Nat) (ts : List Bytes) : Bytes := (ts.map fun t => indent n ++ t ++ str! ",\n").flatten

mutual

/-- `PrettyOf num quote n v t`: `t` is the text of the value `v` at level `n` of indentation. Scalars and empty containers are written as in `{:?}`, other
containers with one entry per line one level deeper. -/
inductive PrettyOf (num : Val → Bytes) (quote : Bytes → Bytes) : Nat → Val → Bytes → Prop
  | leaf {n v t} (h : DebugOf num quote v t) (ha : ∀ vs, v = .seq vs → vs = []) (ho : ∀ ms, v = .map ms → ms = []) : PrettyOf num quote n v t
  | arr {n vs ts} (hne : vs ≠ []) (h : PrettyItems num quote (n + 1) vs ts) :
      PrettyOf num quote n (.seq vs) ((str! "Array [\n") ++ onLines (n + 1) ts ++ indent n ++ str! "]")
  | obj {n ms ts} (hne : ms ≠ []) (h : PrettyMembers num quote (n + 1) ms ts) :
      PrettyOf num quote n (.map ms) ((str! "Object {\n") ++ onLines (n + 1) ts ++ indent n ++ str! "}")

/-- The texts of the elements of an array. -/
inductive PrettyItems (num : Val → Bytes) (quote : Bytes → Bytes) : Nat → List Val → List Bytes → Prop
  | nil {n} : PrettyItems num quote n [] []
  | cons {n v t vs ts} (h : PrettyOf num quote n v t) (hs : PrettyItems num quote n vs ts) : PrettyItems num quote n (v :: vs) (t :: ts)

/-- The texts of the members of an object: `key: value`. -/
inductive PrettyMembers (num : Val → Bytes) (quote : Bytes → Bytes) : Nat → List (Bytes × Val) → List Bytes → Prop
  | nil {n} : PrettyMembers num quote n [] []
  | cons {n k v t ms ts} (h : PrettyOf num quote n v t) (hs : PrettyMembers num quote n ms ts) :
      PrettyMembers num quote n ((k, v) :: ms) ((quote k ++ (str! ": ") ++ t) :: ts)

end

end Miniserde
