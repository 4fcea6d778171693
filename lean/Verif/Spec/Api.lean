import Verif.Spec.Decode
import Verif.Model.Visitors

/-!
# Vocabulary for the statements about `from_str`
-/

namespace Miniserde

/-- What `json::from_str::<T>(s)` returns, for the type `t`. -/
def parseAs (E : Env) (t : Ty) (s : Bytes) : Option (Res Val) := (fromStr E t s).map Prod.fst

/-- The value of the last occurrence of a key. -/
def lastOcc {α : Type} (k : Bytes) (ms : List (Bytes × α)) : Option α := ms.reverse.lookup k

/-- A strict linear order given by a Boolean comparison (what Rust's `Ord` promises). -/
structure StrictLinear (lt : Bytes → Bytes → Bool) : Prop where
  irrefl : ∀ a, lt a a = false
  trans : ∀ a b c, lt a b = true → lt b c = true → lt a c = true
  total : ∀ a b, lt a b = false → lt b a = false → a = b

/-- Strictly increasing keys. -/
def SortedKeys (lt : Bytes → Bytes → Bool) {α : Type} (m : List (Bytes × α)) : Prop :=
  m.Pairwise fun x y => lt x.1 y.1 = true

/-- The `Number` for a delivered number. -/
inductive IsNumber : Event → Val → Prop
  | pos (n : Nat) : IsNumber (.nonnegative n) (.numU n)
  | neg (n : Int) : IsNumber (.negative n) (.numI n)
  | float (x : F64) : IsNumber (.float x) (.numF x)

mutual

/-- `v` is the `Value` of the tree `j`: numbers as delivered, arrays in order, objects sorted by key with the last
occurrence of each key. -/
inductive IsValue : Json → Val → Prop
  | null : IsValue .null .null
  | bool (b : Bool) : IsValue (.bool b) (.bool b)
  | str (s : Bytes) : IsValue (.str s) (.str s)
  | num {l : NumLit} {ev : Event} {v : Val} (h : numEvent l = .ok ev) (hv : IsNumber ev v) : IsValue (.num l) v
  | arr {xs : List Json} {vs : List Val} (h : AreValues xs vs) : IsValue (.arr xs) (.seq vs)
  | obj {ms : List (Bytes × Json)} {kvs m : List (Bytes × Val)} (h : AreMembers ms kvs) (hs : SortedKeys strLt m)
      (hm : ∀ k, m.lookup k = lastOcc k kvs) : IsValue (.obj ms) (.map m)

inductive AreValues : List Json → List Val → Prop
  | nil : AreValues [] []
  | cons {x : Json} {xs : List Json} {v : Val} {vs : List Val} (h : IsValue x v) (hs : AreValues xs vs) :
      AreValues (x :: xs) (v :: vs)

inductive AreMembers : List (Bytes × Json) → List (Bytes × Val) → Prop
  | nil : AreMembers [] []
  | cons {k : Bytes} {x : Json} {ms : List (Bytes × Json)} {v : Val} {kvs : List (Bytes × Val)} (h : IsValue x v)
      (hs : AreMembers ms kvs) : AreMembers ((k, x) :: ms) ((k, v) :: kvs)

end

/-- The members of an object, each key read by `parse` and each value decoded at `t`, in order. -/
inductive DecodedEntries (E : Env) (parse : Bytes → Option Bytes) (t : Ty) : List (Bytes × Json) → List (Bytes × Val) → Prop
  | nil : DecodedEntries E parse t [] []
  | cons {k k' : Bytes} {x : Json} {v : Val} {ms : List (Bytes × Json)} {kvs : List (Bytes × Val)} (hk : parse k = some k')
      (hv : decode E x t = some v) (h : DecodedEntries E parse t ms kvs) : DecodedEntries E parse t ((k, x) :: ms) ((k', v) :: kvs)

/-- The elements of an array, each decoded at `t`, in order. -/
inductive DecodedElems (E : Env) (t : Ty) : List Json → List Val → Prop
  | nil : DecodedElems E t [] []
  | cons {x : Json} {v : Val} {xs : List Json} {vs : List Val} (hv : decode E x t = some v) (h : DecodedElems E t xs vs) :
      DecodedElems E t (x :: xs) (v :: vs)

/-- A member of a JSON object fits a struct: if its key names a field, the value decodes at the type of the field; if not,
the value is representable. -/
def MemberFits (E : Env) (fields : List (Bytes × Ty)) (m : Bytes × Json) : Prop :=
  match fields.lookup m.1 with
  | some t => ∃ v, decode E m.2 t = some v
  | none => representable m.2 = true

/-- `v` is the value of a field `name : t` of a struct, read from the members `ms`: that of its last occurrence, or `None` if it
is absent and an `Option`. -/
def FieldHas (E : Env) (ms : List (Bytes × Json)) (name : Bytes) (t : Ty) (v : Val) : Prop :=
  match lastOcc name ms with
  | some x => decode E x t = some v
  | none => (∃ t', t = .opt t') ∧ v = .optNone

end Miniserde
