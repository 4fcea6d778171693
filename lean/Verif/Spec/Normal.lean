import Verif.Spec.Api
import Verif.Spec.Ser

/-!
# The normal form of a JSON document

`NormalOf lit j j'`: `j'` is the document `j` with the members of every object sorted by key, each key once with its last value, and the numbers rewritten:
integers that a `u64` or an `i64` holds stay as they are, except that `-0` becomes `0`; other numbers become the literal `lit` of the `f64` they are read as.
-/

namespace Miniserde

/-- What becomes of a number literal. -/
inductive NumNormal (lit : F64 → NumLit) : NumLit → NumLit → Prop
  | int {l : NumLit} (hf : l.frac = none) (he : l.exp = none)
      (hr : if l.minus then 0 < digitsVal l.int ∧ digitsVal l.int ≤ 2 ^ 63 else digitsVal l.int ≤ 2 ^ 64 - 1) : NumNormal lit l l
  | minusZero {l : NumLit} (hf : l.frac = none) (he : l.exp = none) (hm : l.minus = true) (h0 : digitsVal l.int = 0) :
      NumNormal lit l ⟨false, [0x30], none, none⟩
  | float {l : NumLit} {x : F64} (h : numEvent l = .ok (.float x)) : NumNormal lit l (lit x)

mutual

/-- The normal form of a tree. -/
inductive NormalOf (lit : F64 → NumLit) : Json → Json → Prop
  | null : NormalOf lit .null .null
  | bool (b : Bool) : NormalOf lit (.bool b) (.bool b)
  | str (s : Bytes) : NormalOf lit (.str s) (.str s)
  | num {l l' : NumLit} (h : NumNormal lit l l') : NormalOf lit (.num l) (.num l')
  | arr {xs ys : List Json} (h : NormalsOf lit xs ys) : NormalOf lit (.arr xs) (.arr ys)
  | obj {ms ns m : List (Bytes × Json)} (h : NormalMembers lit ms ns) (hs : SortedKeys strLt m) (hm : ∀ k, m.lookup k = lastOcc k ns) :
      NormalOf lit (.obj ms) (.obj m)

/-- The elements of an array, in order. -/
inductive NormalsOf (lit : F64 → NumLit) : List Json → List Json → Prop
  | nil : NormalsOf lit [] []
  | cons {x y xs ys} (h : NormalOf lit x y) (hs : NormalsOf lit xs ys) : NormalsOf lit (x :: xs) (y :: ys)

/-- The values of the members of an object. -/
inductive NormalMembers (lit : F64 → NumLit) : List (Bytes × Json) → List (Bytes × Json) → Prop
  | nil : NormalMembers lit [] []
  | cons {k x y ms ns} (h : NormalOf lit x y) (hs : NormalMembers lit ms ns) : NormalMembers lit ((k, x) :: ms) ((k, y) :: ns)

end

/-- A document in normal form: integers only, none written `-0`, and the members of every object in strictly increasing order of the keys. -/
inductive Json.Normal : Json → Prop
  | null : Json.Normal .null
  | bool (b : Bool) : Json.Normal (.bool b)
  | str (s : Bytes) : Json.Normal (.str s)
  | num {l : NumLit} (hf : l.frac = none) (he : l.exp = none)
      (hr : if l.minus then 0 < digitsVal l.int ∧ digitsVal l.int ≤ 2 ^ 63 else digitsVal l.int ≤ 2 ^ 64 - 1) : Json.Normal (.num l)
  | arr {xs : List Json} (h : ∀ x ∈ xs, Json.Normal x) : Json.Normal (.arr xs)
  | obj {ms : List (Bytes × Json)} (hs : SortedKeys strLt ms) (h : ∀ m ∈ ms, Json.Normal m.2) : Json.Normal (.obj ms)

end Miniserde
