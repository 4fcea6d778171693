import Verif.Model.Types
import Verif.Model.SerLib
import Verif.Spec.Api
import Verif.Spec.Ser

/-!
# Values of a type, and how they are to be serialized

`HasTy E t v`: `v` is a value of the Rust type `t`.  `Encodes E t v x`: the fragment tree `x` is a serialization of `v`; it is unique except for the
order of the entries of hash maps.
-/

namespace Miniserde

/-- A float of the format, in canonical form. -/
def Flt.Valid (f : Fmt) : Flt → Prop
  | .nan => True
  | .inf _ => True
  | .fin _ m e => m < 2 ^ f.prec ∧ f.emin ≤ e ∧ e ≤ f.emax ∧ (e = f.emin ∨ 2 ^ (f.prec - 1) ≤ m)

/-- Names are Rust strings. -/
structure Env.Utf8 (E : Env) : Prop where
  fields : ∀ i f, f ∈ E.fields i → ValidUtf8 f.1
  variants : ∀ i n, n ∈ E.variants i → ValidUtf8 n

/-- Values of a type.  Machine integers are in range, strings are UTF-8, floats are floats of the format, arrays have the right length, maps have no
repeated key and ordered maps are sorted; keys print as Rust strings. -/
inductive HasTy (E : Env) : Ty → Val → Prop
  | unit : HasTy E .unit .null
  | bool (b : Bool) : HasTy E .bool (.bool b)
  | string {s : Bytes} (h : ValidUtf8 s) : HasTy E .string (.str s)
  | int {signed : Bool} {bits : Nat} {z : Int} (hb : bits ≤ 64) (h : lowest signed bits ≤ z ∧ z ≤ highest signed bits) :
      HasTy E (.int signed bits) (.int z)
  | f32 {x : F32} (h : x.Valid binary32) : HasTy E .f32 (.f32 x)
  | f64 {x : F64} (h : x.Valid binary64) : HasTy E .f64 (.f64 x)
  | numU {t : Ty} {n : Nat} (ht : t = .number ∨ t = .value) (h : n ≤ u64Max) : HasTy E t (.numU n)
  | numI {t : Ty} {z : Int} (ht : t = .number ∨ t = .value) (h : i64Min ≤ z ∧ z ≤ i64Max) : HasTy E t (.numI z)
  | numF {t : Ty} {x : F64} (ht : t = .number ∨ t = .value) (h : x.Valid binary64) : HasTy E t (.numF x)
  | vNull : HasTy E .value .null
  | vBool (b : Bool) : HasTy E .value (.bool b)
  | vStr {s : Bytes} (h : ValidUtf8 s) : HasTy E .value (.str s)
  | array {t : Ty} {vs : List Val} (ht : t = .array ∨ t = .value) (h : ∀ v ∈ vs, HasTy E .value v) : HasTy E t (.seq vs)
  | object {t : Ty} {ms : List (Bytes × Val)} (ht : t = .object ∨ t = .value) (hk : ∀ m ∈ ms, ValidUtf8 m.1)
      (hs : SortedKeys strLt ms) (h : ∀ m ∈ ms, HasTy E .value m.2) : HasTy E t (.map ms)
  | box {t : Ty} {v : Val} (h : HasTy E t v) : HasTy E (.box t) (.box v)
  | none (t : Ty) : HasTy E (.opt t) .optNone
  | some {t : Ty} {v : Val} (h : HasTy E t v) : HasTy E (.opt t) (.optSome v)
  | tup {a b : Ty} {x y : Val} (hx : HasTy E a x) (hy : HasTy E b y) : HasTy E (.tup a b) (.seq [x, y])
  | vec {t : Ty} {vs : List Val} (h : ∀ v ∈ vs, HasTy E t v) : HasTy E (.vec t) (.seq vs)
  | arr {t : Ty} {n : Nat} {vs : List Val} (hn : vs.length = n) (h : ∀ v ∈ vs, HasTy E t v) : HasTy E (.arr t n) (.seq vs)
  | hmap {k : Nat} {t : Ty} {ms : List (Bytes × Val)} (hk : (ms.map Prod.fst).Nodup)
      (hu : ∀ m ∈ ms, ValidUtf8 (E.keyShow k m.1)) (h : ∀ m ∈ ms, HasTy E t m.2) :
      HasTy E (.hmap k t) (.map ms)
  | bmap {k : Nat} {t : Ty} {ms : List (Bytes × Val)} (hs : SortedKeys (E.keyLt k) ms)
      (hu : ∀ m ∈ ms, ValidUtf8 (E.keyShow k m.1)) (h : ∀ m ∈ ms, HasTy E t m.2) :
      HasTy E (.bmap k t) (.map ms)
  | strct {i : Nat} {vs : List Val} (hn : vs.length = (E.fields i).length)
      (h : ∀ (j : Nat) (f : Bytes × Ty) (v : Val), (E.fields i)[j]? = some f → vs[j]? = some v → HasTy E f.2 v) :
      HasTy E (.strct i) (.strct vs)
  | enm {i j : Nat} (h : j < (E.variants i).length) : HasTy E (.enm i) (.enm j)

mutual

/-- The serializations of a value. -/
inductive Encodes (E : Env) : Ty → Val → FTree → Prop
  | unit : Encodes E .unit .null .null
  | bool (b : Bool) : Encodes E .bool (.bool b) (.bool b)
  | string (s : Bytes) : Encodes E .string (.str s) (.str s)
  | unsigned (bits n : Nat) : Encodes E (.int false bits) (.int n) (.u64 n)
  | signed (bits : Nat) (z : Int) : Encodes E (.int true bits) (.int z) (.i64 z)
  | f32 (x : F32) : Encodes E .f32 (.f32 x) (.f64 (x.cast binary64))
  | f64 (x : F64) : Encodes E .f64 (.f64 x) (.f64 x)
  | numU (t : Ty) (n : Nat) (ht : t = .number ∨ t = .value) : Encodes E t (.numU n) (.u64 n)
  | numI (t : Ty) (z : Int) (ht : t = .number ∨ t = .value) : Encodes E t (.numI z) (.i64 z)
  | numF (t : Ty) (x : F64) (ht : t = .number ∨ t = .value) : Encodes E t (.numF x) (.f64 x)
  | vNull : Encodes E .value .null .null
  | vBool (b : Bool) : Encodes E .value (.bool b) (.bool b)
  | vStr (s : Bytes) : Encodes E .value (.str s) (.str s)
  | array {t vs xs} (ht : t = .array ∨ t = .value) (h : EncodesAll E .value vs xs) : Encodes E t (.seq vs) (.seq xs)
  | object {t ms xs} (ht : t = .object ∨ t = .value) (h : EncodesEntries E (fun k => k) .value ms xs) : Encodes E t (.map ms) (.map xs)
  | box {t v x} (h : Encodes E t v x) : Encodes E (.box t) (.box v) x
  | none (t : Ty) : Encodes E (.opt t) .optNone .null
  | some {t v x} (h : Encodes E t v x) : Encodes E (.opt t) (.optSome v) x
  | tup {a b v u x y} (hx : Encodes E a v x) (hy : Encodes E b u y) : Encodes E (.tup a b) (.seq [v, u]) (.seq [x, y])
  | vec {t vs xs} (h : EncodesAll E t vs xs) : Encodes E (.vec t) (.seq vs) (.seq xs)
  | arr {t n vs xs} (h : EncodesAll E t vs xs) : Encodes E (.arr t n) (.seq vs) (.seq xs)
  /-- in any order -/
  | hmap {k t ms ms' xs} (hp : ms'.Perm ms) (h : EncodesEntries E (E.keyShow k) t ms' xs) : Encodes E (.hmap k t) (.map ms) (.map xs)
  /-- in key order -/
  | bmap {k t ms xs} (h : EncodesEntries E (E.keyShow k) t ms xs) : Encodes E (.bmap k t) (.map ms) (.map xs)
  | strct {i vs xs} (h : EncodesFields E (E.fields i) vs xs) : Encodes E (.strct i) (.strct vs) (.map xs)
  | enm {i j name} (h : (E.variants i)[j]? = Option.some name) : Encodes E (.enm i) (.enm j) (.str name)

/-- Elements in order. -/
inductive EncodesAll (E : Env) : Ty → List Val → List FTree → Prop
  | nil (t : Ty) : EncodesAll E t [] []
  | cons {t v vs x xs} (h : Encodes E t v x) (hs : EncodesAll E t vs xs) : EncodesAll E t (v :: vs) (x :: xs)

/-- Entries in order, keys printed by `show`. -/
inductive EncodesEntries (E : Env) : (Bytes → Bytes) → Ty → List (Bytes × Val) → List (Bytes × FTree) → Prop
  | nil (f : Bytes → Bytes) (t : Ty) : EncodesEntries E f t [] []
  | cons {f t k v ms x xs} (h : Encodes E t v x) (hs : EncodesEntries E f t ms xs) :
      EncodesEntries E f t ((k, v) :: ms) ((f k, x) :: xs)

/-- The fields of a struct in declaration order, each under its name. -/
inductive EncodesFields (E : Env) : List (Bytes × Ty) → List Val → List (Bytes × FTree) → Prop
  | nil : EncodesFields E [] [] []
  | cons {name t fs v vs x xs} (h : Encodes E t v x) (hs : EncodesFields E fs vs xs) :
      EncodesFields E ((name, t) :: fs) (v :: vs) ((name, x) :: xs)

end

/-- `json::to_string(&v)` for the value `v` of type `t` returns the text `o`.  `order` is the iteration order of hash maps. -/
def PrintsAs (E : Env) (order : Nat → List (Bytes × Val) → List (Bytes × Val)) (ryu : F64 → Bytes) (t : Ty) (v : Val) (o : Bytes) : Prop :=
  ∃ h, Prints (serLib E order) ryu (t, v) SHeap.empty o h

end Miniserde
