import Verif.Spec.Evolve

/-!
# Programs of different versions exchange documents

`Spec/Evolve.lean` has the changes of a type that keep every old document readable.  A field can not be added that way: an old document may have a member of that name, which the old
version skipped.  Documents written by the old version have no such members.
-/

namespace Miniserde

/-- A document without unknown members, read at a type: an object read as a struct has only members named like fields of the struct. -/
inductive Tidy (E : Env) : Ty → Json → Prop
  | scalar {t : Ty} {j : Json} (h : ∀ xs, j ≠ .arr xs) (h' : ∀ ms, j ≠ .obj ms) : Tidy E t j
  /-- no structs inside -/
  | untyped {t : Ty} {j : Json} (h : t = .array ∨ t = .object ∨ t = .value) : Tidy E t j
  | box {t : Ty} {j : Json} (h : Tidy E t j) : Tidy E (.box t) j
  | opt {t : Ty} {j : Json} (h : Tidy E t j) : Tidy E (.opt t) j
  | tup {a b : Ty} {x y : Json} (h : Tidy E a x) (h' : Tidy E b y) : Tidy E (.tup a b) (.arr [x, y])
  | vec {t : Ty} {xs : List Json} (h : ∀ x ∈ xs, Tidy E t x) : Tidy E (.vec t) (.arr xs)
  | arr {t : Ty} {n : Nat} {xs : List Json} (h : ∀ x ∈ xs, Tidy E t x) : Tidy E (.arr t n) (.arr xs)
  | hmap {k : Nat} {t : Ty} {ms : List (Bytes × Json)} (h : ∀ m ∈ ms, Tidy E t m.2) : Tidy E (.hmap k t) (.obj ms)
  | bmap {k : Nat} {t : Ty} {ms : List (Bytes × Json)} (h : ∀ m ∈ ms, Tidy E t m.2) : Tidy E (.bmap k t) (.obj ms)
  | strct {i : Nat} {ms : List (Bytes × Json)} (hk : ∀ m ∈ ms, m.1 ∈ (E.fields i).map Prod.fst)
      (h : ∀ m ∈ ms, ∀ t, (m.1, t) ∈ E.fields i → Tidy E t m.2) : Tidy E (.strct i) (.obj ms)

/-- As `StructsWiden`; moreover the new struct may have further fields, which are `Option`s. -/
def StructsGrow (E : Env) (S : Nat → Nat → Prop) : Prop :=
  ∀ i i', S i i' → ((E.fields i).map Prod.fst).Nodup ∧ ((E.fields i').map Prod.fst).Nodup ∧
    ∀ n t', (n, t') ∈ E.fields i' →
      (∃ t, (n, t) ∈ E.fields i ∧ Widens E S t t' ∧ (t.isOpt = true → t'.isOpt = true)) ∨ (n ∉ (E.fields i).map Prod.fst ∧ t'.isOpt = true)

mutual

/-- The value `v` of the old type becomes `v'` of the new type; as `Becomes`, and fields that were added are `None`. -/
inductive Grows (E : Env) : Ty → Val → Ty → Val → Prop
  | same (t : Ty) (v : Val) : Grows E t v t v
  | int {s s' : Bool} {m n : Nat} (z : Int) : Grows E (.int s m) (.int z) (.int s' n) (.int z)
  | numU {s : Bool} {m : Nat} (n : Nat) : Grows E (.int s m) (.int n) .number (.numU n)
  | numI {s : Bool} {m : Nat} (z : Int) : Grows E (.int s m) (.int z) .number (.numI z)
  | value (t : Ty) (v : Val) : Grows E t v .value v
  | some {t t' : Ty} {v v' : Val} (h : Grows E t v t' v') : Grows E t v (.opt t') (.optSome v')
  | optSome {t t' : Ty} {v v' : Val} (h : Grows E t v t' v') : Grows E (.opt t) (.optSome v) (.opt t') (.optSome v')
  | optNone {t t' : Ty} : Grows E (.opt t) .optNone (.opt t') .optNone
  | box {t t' : Ty} {v v' : Val} (h : Grows E t v t' v') : Grows E t v (.box t') (.box v')
  | unbox {t t' : Ty} {v v' : Val} (h : Grows E t v t' v') : Grows E (.box t) (.box v) t' v'
  | vec {t t' : Ty} {vs vs' : List Val} (h : GrowAll E t vs t' vs') : Grows E (.vec t) (.seq vs) (.vec t') (.seq vs')
  | arr {t t' : Ty} {n : Nat} {vs vs' : List Val} (h : GrowAll E t vs t' vs') : Grows E (.arr t n) (.seq vs) (.arr t' n) (.seq vs')
  | arrVec {t t' : Ty} {n : Nat} {vs vs' : List Val} (h : GrowAll E t vs t' vs') : Grows E (.arr t n) (.seq vs) (.vec t') (.seq vs')
  | tup {a b a' b' : Ty} {u v u' v' : Val} (h : Grows E a u a' u') (h' : Grows E b v b' v') :
      Grows E (.tup a b) (.seq [u, v]) (.tup a' b') (.seq [u', v'])
  | tupVec {a b t : Ty} {u v u' v' : Val} (h : Grows E a u t u') (h' : Grows E b v t v') :
      Grows E (.tup a b) (.seq [u, v]) (.vec t) (.seq [u', v'])
  | hmap {k : Nat} {t t' : Ty} {ms ms' : List (Bytes × Val)} (h : GrowEntries E t ms t' ms') : Grows E (.hmap k t) (.map ms) (.hmap k t') (.map ms')
  | bmap {k : Nat} {t t' : Ty} {ms ms' : List (Bytes × Val)} (h : GrowEntries E t ms t' ms') : Grows E (.bmap k t) (.map ms) (.bmap k t') (.map ms')
  /-- fields of the same name; the others are new -/
  | strct {i i' : Nat} {vs vs' : List Val} (hl : vs.length = (E.fields i).length) (hl' : vs'.length = (E.fields i').length)
      (h : ∀ (j j' : Nat) n t t' v v', (E.fields i)[j]? = Option.some (n, t) → (E.fields i')[j']? = Option.some (n, t') → vs[j]? = Option.some v →
        vs'[j']? = Option.some v' → Grows E t v t' v')
      (hnew : ∀ (j' : Nat) n t', (E.fields i')[j']? = Option.some (n, t') → n ∉ (E.fields i).map Prod.fst → vs'[j']? = Option.some .optNone) :
      Grows E (.strct i) (.strct vs) (.strct i') (.strct vs')
  /-- variants of the same name -/
  | enm {i i' j j' : Nat} {s : Bytes} (h : (E.variants i)[j]? = Option.some s) (h' : (E.variants i')[j']? = Option.some s) :
      Grows E (.enm i) (.enm j) (.enm i') (.enm j')
  | name {i j : Nat} {s : Bytes} (h : (E.variants i)[j]? = Option.some s) : Grows E (.enm i) (.enm j) .string (.str s)

/-- ... elementwise -/
inductive GrowAll (E : Env) : Ty → List Val → Ty → List Val → Prop
  | nil (t t' : Ty) : GrowAll E t [] t' []
  | cons {t t' : Ty} {v v' : Val} {vs vs' : List Val} (h : Grows E t v t' v') (hs : GrowAll E t vs t' vs') : GrowAll E t (v :: vs) t' (v' :: vs')

/-- ... under the same keys -/
inductive GrowEntries (E : Env) : Ty → List (Bytes × Val) → Ty → List (Bytes × Val) → Prop
  | nil (t t' : Ty) : GrowEntries E t [] t' []
  | cons {t t' : Ty} {k : Bytes} {v v' : Val} {ms ms' : List (Bytes × Val)} (h : Grows E t v t' v') (hs : GrowEntries E t ms t' ms') :
      GrowEntries E t ((k, v) :: ms) t' ((k, v') :: ms')

end

end Miniserde
