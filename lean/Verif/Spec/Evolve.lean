import Verif.Spec.Api

/-!
# Compatible changes of a type

Which changes of a data type keep old documents readable, and what becomes of the values.
-/

namespace Miniserde

/-- Is `null` a text of the type? -/
def Ty.takesNull : Ty → Bool
  | .unit | .value | .opt _ => true
  | .box t => t.takesNull
  | _ => false

/-- Is the type an `Option`? -/
def Ty.isOpt : Ty → Bool
  | .opt _ => true
  | _ => false

/-- `Widens E S t t'`: the type `t` may be replaced by `t'`.  `S i i'`: the derived struct `i` may be replaced by the struct `i'`. -/
inductive Widens (E : Env) (S : Nat → Nat → Prop) : Ty → Ty → Prop
  | refl (t : Ty) : Widens E S t t
  /-- an integer type by one with the same signedness and at least as many bits -/
  | int {s : Bool} {m n : Nat} (h : m ≤ n) : Widens E S (.int s m) (.int s n)
  /-- an unsigned integer type by a signed one with more bits -/
  | sign {m n : Nat} (h : m < n) : Widens E S (.int false m) (.int true n)
  /-- an integer type by `Number` -/
  | number {s : Bool} {n : Nat} : Widens E S (.int s n) .number
  /-- scalars and collections of `Value` by `Value` -/
  | value {t : Ty} (h : t = .unit ∨ t = .bool ∨ t = .string ∨ t = .number ∨ t = .array ∨ t = .object) : Widens E S t .value
  /-- a mandatory value by an optional one -/
  | some {t t' : Ty} (h : Widens E S t t') (hn : t.takesNull = false) : Widens E S t (.opt t')
  | opt {t t' : Ty} (h : Widens E S t t') : Widens E S (.opt t) (.opt t')
  | box {t t' : Ty} (h : Widens E S t t') : Widens E S t (.box t')
  | unbox {t t' : Ty} (h : Widens E S t t') : Widens E S (.box t) t'
  | vec {t t' : Ty} (h : Widens E S t t') : Widens E S (.vec t) (.vec t')
  | arr {t t' : Ty} {n : Nat} (h : Widens E S t t') : Widens E S (.arr t n) (.arr t' n)
  | tup {a b a' b' : Ty} (h : Widens E S a a') (h' : Widens E S b b') : Widens E S (.tup a b) (.tup a' b')
  /-- a sequence of fixed length by a vector -/
  | arrVec {t t' : Ty} {n : Nat} (h : Widens E S t t') : Widens E S (.arr t n) (.vec t')
  | tupVec {a b t : Ty} (h : Widens E S a t) (h' : Widens E S b t) : Widens E S (.tup a b) (.vec t)
  | hmap {k : Nat} {t t' : Ty} (h : Widens E S t t') : Widens E S (.hmap k t) (.hmap k t')
  | bmap {k : Nat} {t t' : Ty} (h : Widens E S t t') : Widens E S (.bmap k t) (.bmap k t')
  | strct {i i' : Nat} (h : S i i') : Widens E S (.strct i) (.strct i')
  /-- an enum by one with more variants -/
  | enm {i i' : Nat} (h : ∀ s ∈ E.variants i, s ∈ E.variants i') : Widens E S (.enm i) (.enm i')
  /-- an enum by the names of the variants -/
  | name {i : Nat} : Widens E S (.enm i) .string

/-- A struct may be replaced by another one if every field of the new one was a field of the old one, with a type that may be replaced by the new type
(fields may be removed and reordered); `Option` fields, which may be absent, remain `Option`s. -/
def StructsWiden (E : Env) (S : Nat → Nat → Prop) : Prop :=
  ∀ i i', S i i' → ((E.fields i).map Prod.fst).Nodup ∧ ((E.fields i').map Prod.fst).Nodup ∧
    ∀ n t', (n, t') ∈ E.fields i' → ∃ t, (n, t) ∈ E.fields i ∧ Widens E S t t' ∧ (t.isOpt = true → t'.isOpt = true)

mutual

/-- The value `v` of the old type becomes `v'` of the new type. -/
inductive Becomes (E : Env) : Ty → Val → Ty → Val → Prop
  | same (t : Ty) (v : Val) : Becomes E t v t v
  | int {s s' : Bool} {m n : Nat} (z : Int) : Becomes E (.int s m) (.int z) (.int s' n) (.int z)
  | numU {s : Bool} {m : Nat} (n : Nat) : Becomes E (.int s m) (.int n) .number (.numU n)
  | numI {s : Bool} {m : Nat} (z : Int) : Becomes E (.int s m) (.int z) .number (.numI z)
  | value (t : Ty) (v : Val) : Becomes E t v .value v
  | some {t t' : Ty} {v v' : Val} (h : Becomes E t v t' v') : Becomes E t v (.opt t') (.optSome v')
  | optSome {t t' : Ty} {v v' : Val} (h : Becomes E t v t' v') : Becomes E (.opt t) (.optSome v) (.opt t') (.optSome v')
  | optNone {t t' : Ty} : Becomes E (.opt t) .optNone (.opt t') .optNone
  | box {t t' : Ty} {v v' : Val} (h : Becomes E t v t' v') : Becomes E t v (.box t') (.box v')
  | unbox {t t' : Ty} {v v' : Val} (h : Becomes E t v t' v') : Becomes E (.box t) (.box v) t' v'
  | vec {t t' : Ty} {vs vs' : List Val} (h : BecomeAll E t vs t' vs') : Becomes E (.vec t) (.seq vs) (.vec t') (.seq vs')
  | arr {t t' : Ty} {n : Nat} {vs vs' : List Val} (h : BecomeAll E t vs t' vs') : Becomes E (.arr t n) (.seq vs) (.arr t' n) (.seq vs')
  | arrVec {t t' : Ty} {n : Nat} {vs vs' : List Val} (h : BecomeAll E t vs t' vs') : Becomes E (.arr t n) (.seq vs) (.vec t') (.seq vs')
  | tup {a b a' b' : Ty} {u v u' v' : Val} (h : Becomes E a u a' u') (h' : Becomes E b v b' v') :
      Becomes E (.tup a b) (.seq [u, v]) (.tup a' b') (.seq [u', v'])
  | tupVec {a b t : Ty} {u v u' v' : Val} (h : Becomes E a u t u') (h' : Becomes E b v t v') :
      Becomes E (.tup a b) (.seq [u, v]) (.vec t) (.seq [u', v'])
  | hmap {k : Nat} {t t' : Ty} {ms ms' : List (Bytes × Val)} (h : BecomeEntries E t ms t' ms') : Becomes E (.hmap k t) (.map ms) (.hmap k t') (.map ms')
  | bmap {k : Nat} {t t' : Ty} {ms ms' : List (Bytes × Val)} (h : BecomeEntries E t ms t' ms') : Becomes E (.bmap k t) (.map ms) (.bmap k t') (.map ms')
  /-- fields of the same name -/
  | strct {i i' : Nat} {vs vs' : List Val} (hl : vs.length = (E.fields i).length) (hl' : vs'.length = (E.fields i').length)
      (h : ∀ (j j' : Nat) n t t' v v', (E.fields i)[j]? = Option.some (n, t) → (E.fields i')[j']? = Option.some (n, t') → vs[j]? = Option.some v →
        vs'[j']? = Option.some v' → Becomes E t v t' v') : Becomes E (.strct i) (.strct vs) (.strct i') (.strct vs')
  /-- variants of the same name -/
  | enm {i i' j j' : Nat} {s : Bytes} (h : (E.variants i)[j]? = Option.some s) (h' : (E.variants i')[j']? = Option.some s) :
      Becomes E (.enm i) (.enm j) (.enm i') (.enm j')
  | name {i j : Nat} {s : Bytes} (h : (E.variants i)[j]? = Option.some s) : Becomes E (.enm i) (.enm j) .string (.str s)

/-- ... elementwise -/
inductive BecomeAll (E : Env) : Ty → List Val → Ty → List Val → Prop
  | nil (t t' : Ty) : BecomeAll E t [] t' []
  | cons {t t' : Ty} {v v' : Val} {vs vs' : List Val} (h : Becomes E t v t' v') (hs : BecomeAll E t vs t' vs') : BecomeAll E t (v :: vs) t' (v' :: vs')

/-- ... under the same keys -/
inductive BecomeEntries (E : Env) : Ty → List (Bytes × Val) → Ty → List (Bytes × Val) → Prop
  | nil (t t' : Ty) : BecomeEntries E t [] t' []
  | cons {t t' : Ty} {k : Bytes} {v v' : Val} {ms ms' : List (Bytes × Val)} (h : Becomes E t v t' v') (hs : BecomeEntries E t ms t' ms') :
      BecomeEntries E t ((k, v) :: ms) t' ((k, v') :: ms')

end

end Miniserde
