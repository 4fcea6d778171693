import Verif.Model.Basic
import Verif.Model.Derive

/-!
# `derive/src/bound.rs`: the generics of the generated impls

`syn::Generics` as an abstract syntax.  Trait bounds and where-predicates of the user are opaque (`Bytes`: their tokens), except that a lifetime bound is
recognisable.  Attributes and defaults of parameters, spans and punctuation are not modelled.
-/

namespace Miniserde

/-- `syn::TypeParamBound`. Used in `derive/src/bound.rs:4,25`. -/
inductive TBound where
  | trait (tokens : Bytes)
  | lifetime (l : Bytes)
  deriving DecidableEq

/-- `syn::GenericParam`. Used in `derive/src/bound.rs:4,17-29`. -/
inductive GParam where
  | lifetime (name : Bytes) (bounds : List Bytes)
  | type (name : Bytes) (bounds : List TBound)
  | const (name : Bytes) (ty : Bytes)
  deriving DecidableEq

/-- `syn::WherePredicate`: a bound on a type parameter, or anything else. Used in `derive/src/bound.rs:5,40-43`. -/
inductive WPred where
  | bound (param : Bytes) (b : TBound)
  | other (tokens : Bytes)
  deriving DecidableEq

/-- `syn::Generics`. Used in `derive/src/bound.rs:8,33-36,39-50`. -/
structure Generics where
  params : List GParam
  whereClause : Option (List WPred)
  deriving DecidableEq

/-- `derive/src/bound.rs:19-30`: the closure applied to each parameter. -/
def addBound (bound : Bytes) : GParam → GParam
  | .lifetime n bs => .lifetime n (bs ++ [bound])
  | .type n bs => .type n (bs ++ [.lifetime bound])
  | .const n t => .const n t

/-- `derive/src/bound.rs:8-37` `with_lifetime_bound`. -/
def withLifetimeBound (g : Generics) (lifetime : Bytes) : Generics :=
  { g with params := .lifetime lifetime [] :: g.params.map (addBound lifetime) }

/-- `Generics::type_params` (external). Used in `derive/src/bound.rs:40`. -/
def Generics.typeParams (g : Generics) : List Bytes :=
  g.params.filterMap fun p => match p with
    | .type n _ => some n
    | _ => none

/-- `derive/src/bound.rs:39-51` `where_clause_with_bound`. -/
def whereClauseWithBound (g : Generics) (bound : Bytes) : List WPred :=
  g.whereClause.getD [] ++ g.typeParams.map fun n => .bound n (.trait bound)

/-- The generics of the generated code: `impl Trait for Name` and the other impls (`derive/src/de.rs:61`, `:73`, `:91`; `derive/src/ser.rs:56`, `:70`) have
`impl_generics`/`wrapper_impl_generics` with `bounded_where_clause`; the helper structs (`derive/src/de.rs:57`, `:84`; `derive/src/ser.rs:65`) have the plain where
clause. -/
structure GenGenerics where
  /-- of `impl Deserialize for Name` / `impl Serialize for Name` -/
  impl : Generics
  /-- of `struct __State` / `struct __Map` -/
  wrapperStruct : Generics
  /-- of `impl Map for __State` / `impl Map for __Map` -/
  wrapperImpl : Generics

/-- `derive/src/de.rs:38`, `:48-51`; `derive/src/ser.rs:38`, `:48-51`. -/
def genGenerics (g : Generics) (trait : Bytes) : GenGenerics :=
  let wrapper := withLifetimeBound g (str! "'__a")
  { impl := { g with whereClause := some (whereClauseWithBound g trait) }
    wrapperStruct := wrapper
    wrapperImpl := { wrapper with whereClause := some (whereClauseWithBound g trait) } }

end Miniserde
