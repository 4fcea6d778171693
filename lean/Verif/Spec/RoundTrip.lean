import Verif.Spec.Encode

/-!
# Which values can be read back, and what reading back means
-/

namespace Miniserde

/-- Is the (float-free) value written as `null`? -/
def Val.asNull : Val → Bool
  | .null => true
  | .optNone => true
  | .optSome v => v.asNull
  | .box v => v.asNull
  | _ => false

/-- Values that can be read back: no floats, `Some v` only for `v` not written as `null`, distinct names, keys that survive
`to_string`/`from_str`, lawful `Ord` for ordered keys.  A `Number::I64` must be negative (a non-negative one is read back
as `Number::U64`). -/
inductive Plain (E : Env) : Ty → Val → Prop
  | unit : Plain E .unit .null
  | bool (b : Bool) : Plain E .bool (.bool b)
  | string (s : Bytes) : Plain E .string (.str s)
  | int (signed : Bool) (bits : Nat) (z : Int) : Plain E (.int signed bits) (.int z)
  | numU {t : Ty} (n : Nat) (ht : t = .number ∨ t = .value) : Plain E t (.numU n)
  | numI {t : Ty} {z : Int} (ht : t = .number ∨ t = .value) (h : z < 0) : Plain E t (.numI z)
  | vNull : Plain E .value .null
  | vBool (b : Bool) : Plain E .value (.bool b)
  | vStr (s : Bytes) : Plain E .value (.str s)
  | array {t : Ty} {vs : List Val} (ht : t = .array ∨ t = .value) (h : ∀ v ∈ vs, Plain E .value v) : Plain E t (.seq vs)
  | object {t : Ty} {ms : List (Bytes × Val)} (ht : t = .object ∨ t = .value) (h : ∀ m ∈ ms, Plain E .value m.2) : Plain E t (.map ms)
  | box {t : Ty} {v : Val} (h : Plain E t v) : Plain E (.box t) (.box v)
  | none (t : Ty) : Plain E (.opt t) .optNone
  | some {t : Ty} {v : Val} (h : Plain E t v) (hn : v.asNull = false) : Plain E (.opt t) (.optSome v)
  | tup {a b : Ty} {x y : Val} (hx : Plain E a x) (hy : Plain E b y) : Plain E (.tup a b) (.seq [x, y])
  | vec {t : Ty} {vs : List Val} (h : ∀ v ∈ vs, Plain E t v) : Plain E (.vec t) (.seq vs)
  | arr {t : Ty} {n : Nat} {vs : List Val} (h : ∀ v ∈ vs, Plain E t v) : Plain E (.arr t n) (.seq vs)
  | hmap {k : Nat} {t : Ty} {ms : List (Bytes × Val)} (hk : ∀ m ∈ ms, E.keyParse k (E.keyShow k m.1) = Option.some m.1)
      (h : ∀ m ∈ ms, Plain E t m.2) : Plain E (.hmap k t) (.map ms)
  | bmap {k : Nat} {t : Ty} {ms : List (Bytes × Val)} (hl : StrictLinear (E.keyLt k))
      (hk : ∀ m ∈ ms, E.keyParse k (E.keyShow k m.1) = Option.some m.1) (h : ∀ m ∈ ms, Plain E t m.2) : Plain E (.bmap k t) (.map ms)
  | strct {i : Nat} {vs : List Val} (hd : ((E.fields i).map Prod.fst).Nodup)
      (h : ∀ (j : Nat) (f : Bytes × Ty) (v : Val), (E.fields i)[j]? = Option.some f → vs[j]? = Option.some v → Plain E f.2 v) :
      Plain E (.strct i) (.strct vs)
  | enm {i j : Nat} (hd : (E.variants i).Nodup) : Plain E (.enm i) (.enm j)

/-- Can a value of the type be written as `null`? -/
def Ty.nullable : Ty → Bool
  | .unit | .f32 | .f64 | .number | .value | .opt _ => true
  | .box t => t.nullable
  | _ => false

/-- Types without floats (hence without `Number`, `Value`) and with `Option` only over types never written as `null`. -/
def Ty.plain : Ty → Bool
  | .f32 | .f64 | .number | .value | .array | .object => false
  | .box t | .vec t | .arr t _ | .hmap _ t | .bmap _ t => t.plain
  | .opt t => t.plain && !t.nullable
  | .tup a b => a.plain && b.plain
  | _ => true

/-- The program's own types are well-behaved: plain field types, distinct names, keys that survive `to_string`/`from_str`, lawful
`Ord`. -/
structure Env.Plain (E : Env) : Prop where
  fieldTypes : ∀ i, ∀ f ∈ E.fields i, f.2.plain = true
  fieldNames : ∀ i, ((E.fields i).map Prod.fst).Nodup
  variants : ∀ i, (E.variants i).Nodup
  keys : ∀ k key, E.keyParse k (E.keyShow k key) = some key
  order : ∀ k, StrictLinear (E.keyLt k)

mutual

/-- Equal as Rust values of the type: hash maps are equal when they have the same entries, in whatever order. -/
inductive Same : Env → Ty → Val → Val → Prop
  | refl (E : Env) (t : Ty) (v : Val) : Same E t v v
  | box {E t v v'} (h : Same E t v v') : Same E (.box t) (.box v) (.box v')
  | some {E t v v'} (h : Same E t v v') : Same E (.opt t) (.optSome v) (.optSome v')
  | tup {E a b x y x' y'} (hx : Same E a x x') (hy : Same E b y y') : Same E (.tup a b) (.seq [x, y]) (.seq [x', y'])
  | vec {E t vs vs'} (h : SameAll E t vs vs') : Same E (.vec t) (.seq vs) (.seq vs')
  | arr {E t n vs vs'} (h : SameAll E t vs vs') : Same E (.arr t n) (.seq vs) (.seq vs')
  | hmap {E k t ms ms₁ ms'} (hp : ms.Perm ms₁) (h : SameEntries E t ms₁ ms') : Same E (.hmap k t) (.map ms) (.map ms')
  | bmap {E k t ms ms'} (h : SameEntries E t ms ms') : Same E (.bmap k t) (.map ms) (.map ms')
  | strct {E i vs vs'} (h : SameFields E (E.fields i) vs vs') : Same E (.strct i) (.strct vs) (.strct vs')

inductive SameAll : Env → Ty → List Val → List Val → Prop
  | nil (E : Env) (t : Ty) : SameAll E t [] []
  | cons {E t v v' vs vs'} (h : Same E t v v') (hs : SameAll E t vs vs') : SameAll E t (v :: vs) (v' :: vs')

inductive SameEntries : Env → Ty → List (Bytes × Val) → List (Bytes × Val) → Prop
  | nil (E : Env) (t : Ty) : SameEntries E t [] []
  | cons {E t k v v' ms ms'} (h : Same E t v v') (hs : SameEntries E t ms ms') : SameEntries E t ((k, v) :: ms) ((k, v') :: ms')

inductive SameFields : Env → List (Bytes × Ty) → List Val → List Val → Prop
  | nil (E : Env) : SameFields E [] [] []
  | cons {E f fs v v' vs vs'} (h : Same E f.2 v v') (hs : SameFields E fs vs vs') : SameFields E (f :: fs) (v :: vs) (v' :: vs')

end

/-- No `HashMap` in the type (fields of structs aside). -/
def Ty.noHash : Ty → Bool
  | .hmap .. => false
  | .box t | .vec t | .arr t _ | .opt t | .bmap _ t => t.noHash
  | .tup a b => a.noHash && b.noHash
  | _ => true

end Miniserde
