import Verif.Model.DropGlue
import Verif.Spec.Client

/-!
# How deep destructors nest

`Ty.glue` bounds, by the type alone, how many calls dropping a value of the type nests; it exists for programs whose structs are not recursive.
-/

namespace Miniserde

/-- Calls needed to drop a value of the type, if `g i` calls are enough for the fields of derived struct `i`. -/
def Ty.glue (g : Nat → Nat) : Ty → Nat
  | .value | .array | .object => 5
  | .box t | .opt t | .vec t | .arr t _ | .hmap _ t | .bmap _ t => t.glue g + 1
  | .tup a b => max (a.glue g) (b.glue g) + 1
  | .strct i => g i + 1
  | _ => 1

/-- `g i` calls are enough for each field of struct `i`.  A struct that contains itself, however indirectly, has no such `g`: the number would have to be larger than itself. -/
def Flat (E : Env) (g : Nat → Nat) : Prop := ∀ i, ∀ f ∈ E.fields i, f.2.glue g ≤ g i

/-- The values a builder holds, with their types. -/
def Core.Holds (E : Env) : Core → Ty → Val → Prop
  | .vec t done el, t', v => t' = t ∧ (v ∈ done ∨ el = some v)
  | .arr t _ slots _ el, t', v => t' = t ∧ (some v ∈ slots ∨ el = some v)
  | .tup a b x y, t', v => (t' = a ∧ x = some v) ∨ (t' = b ∧ y = some v)
  | .map _ t m _ val, t', v => t' = t ∧ ((∃ k, (k, v) ∈ m) ∨ val = some v)
  | .strct i fs, t', v => ∃ (j : Nat) (f : Bytes × Ty), (E.fields i)[j]? = some f ∧ t' = f.2 ∧ fs[j]? = some (some v)

/-- The values an object in memory holds, with their types; `t` is the type of the object if it is a variable (`Option<t>`). -/
def Obj.Holds (E : Env) (t : Ty) : Obj → Ty → Val → Prop
  | .slot c, t', v => t' = t ∧ c = some v
  | .builder _ core, t', v => core.Holds E t' v
  | .boxB _ _ _, _, _ => False

section
variable {σ : Type} (P : Proto σ)

/-- Remember what the world looks like after a call. -/
def noteRes {α : Type} (H : List σ) (r : Res α × σ) : Res α × (σ × List σ) := (r.1, (r.2, r.2 :: H))

/-- `P`, with a record of the world after every call, latest first. -/
def Proto.recorded : Proto (σ × List σ) where
  V := P.V
  Q := P.Q
  M := P.M
  null v w := noteRes w.2 (P.null v w.1)
  boolean v b w := noteRes w.2 (P.boolean v b w.1)
  string v s w := noteRes w.2 (P.string v s w.1)
  negative v n w := noteRes w.2 (P.negative v n w.1)
  nonnegative v n w := noteRes w.2 (P.nonnegative v n w.1)
  float v x w := noteRes w.2 (P.float v x w.1)
  seq v w := noteRes w.2 (P.seq v w.1)
  map v w := noteRes w.2 (P.map v w.1)
  element q w := noteRes w.2 (P.element q w.1)
  seqFinish q w := noteRes w.2 (P.seqFinish q w.1)
  key m k w := noteRes w.2 (P.key m k w.1)
  mapFinish m w := noteRes w.2 (P.mapFinish m w.1)
  dropSeq q w := (P.dropSeq q w.1, P.dropSeq q w.1 :: w.2)
  dropMap m w := (P.dropMap m w.1, P.dropMap m w.1 :: w.2)

end

end Miniserde
