import Verif.Model.Expand

/-!
# What the names in the generated code are meant to stand for
-/

namespace Miniserde.Expand

/-- The items the macro's author had in mind for the paths through the crate. -/
def libMeans : List ((Ns × List Bytes) × Lib) :=
  [((.ty, [str! "Deserialize"]), .deserialize), ((.ty, [str! "Serialize"]), .serialize),
   ((.val, [str! "Deserialize", str! "begin"]), .deserializeBegin), ((.val, [str! "Deserialize", str! "default"]), .deserializeDefault),
   ((.ty, [str! "Result"]), .result), ((.val, [str! "Error"]), .error),
   ((.ty, [str! "de", str! "Visitor"]), .visitor), ((.val, [str! "de", str! "Visitor", str! "ignore"]), .ignore), ((.ty, [str! "de", str! "Map"]), .deMap),
   ((.ty, [str! "ser", str! "Map"]), .serMap), ((.ty, [str! "ser", str! "Fragment"]), .fragment),
   ((.val, [str! "ser", str! "Fragment", str! "Map"]), .fragmentMap), ((.val, [str! "ser", str! "Fragment", str! "Str"]), .fragmentStr),
   ((.ty, [str! "__private", str! "Option"]), .option), ((.ty, [str! "__private", str! "Box"]), .box), ((.ty, [str! "__private", str! "Cow"]), .cow),
   ((.ty, [str! "__private", str! "str"]), .str), ((.ty, [str! "__private", str! "usize"]), .usize),
   ((.val, [str! "__private", str! "Some"]), .some), ((.val, [str! "__private", str! "None"]), .none),
   ((.val, [str! "__private", str! "Ok"]), .ok), ((.val, [str! "__private", str! "Err"]), .err),
   ((.val, [str! "__private", str! "Box", str! "new"]), .boxNew), ((.val, [str! "__private", str! "Cow", str! "Borrowed"]), .cowBorrowed)]

/-- What a path in the generated code is meant to stand for. -/
def Src.Means : Src → Meaning → Prop
  | .lib ns p, m => ∃ l, ((ns, p), l) ∈ libMeans ∧ m = .lib l
  | .ok, m => m = .lib .ok
  | .ident, m => m = .target
  | .variant v, m => m = .variant v
  | .tparam n, m => m = .param n
  | .cparam n, m => m = .param n
  | .helper n, m => m = .helper n
  | .var n, m => m = .var n

/-- The name stands for what it is meant to: paths for the items intended, the user's tokens for what they stand for in the user's own declaration, a binder for a new variable, methods for those of
`Option`; and struct declarations have no field twice. -/
def Occ.AsMeant (S : Site) (tparams cparams : List Bytes) : Occ → Prop
  | .path src m => src.Means m
  | .copied ns x m => m = Scope.name S ⟨[], tparams, cparams, []⟩ ns x
  | .binder _ fresh => fresh = true
  | .fields names => names.Nodup
  | .method _ ofOption => ofOption = true

/-- Every name in the code generated for the struct stands for what it is meant to. -/
def Struct.Hygienic (S : Site) (d : Struct) (code : Tm) : Prop :=
  ∀ o ∈ code.occs S d.name Scope.top, o.AsMeant S d.tparams d.cparams

/-- The same for an enum. -/
def Enum.Hygienic (S : Site) (d : Enum) (code : Tm) : Prop :=
  ∀ o ∈ code.occs S d.name Scope.top, o.AsMeant S [] []

/-- What every derive on a struct needs: `miniserde` is the crate, the name of the struct is the struct, neither is the name of a type parameter, and no constant parameter has the name of
a type in scope. -/
structure Struct.Common (S : Site) (d : Struct) : Prop where
  crate : S.types (str! "miniserde") = some .crate
  target : S.types d.name = some .target
  crateParam : str! "miniserde" ∉ d.tparams
  targetParam : d.name ∉ d.tparams
  consts : ∀ n ∈ d.cparams, n ∉ d.tparams → S.types n = none

/-- The name `h` of a helper struct collides with nothing: not with the struct, nor with a parameter, nor with a name mentioned in the tokens `ms` copied from the declaration. -/
structure Struct.Unused (d : Struct) (h : Bytes) (ms : List (Ns × Bytes)) : Prop where
  target : d.name ≠ h
  params : h ∉ d.tparams
  consts : h ∉ d.cparams
  copied : (Ns.ty, h) ∉ ms ∧ (Ns.arg, h) ∉ ms

/-- The name can be given to a variable. -/
def Free (S : Site) (cparams : List Bytes) (x : Bytes) : Prop := S.fixed x = false ∧ x ∉ cparams

/-- No trait in scope gives `Option<T>` a method `take` that takes the option itself or a shared reference to it. -/
def Takes (S : Site) : Prop := S.methods (str! "take") .val = false ∧ S.methods (str! "take") .ref = false

/-- All names mentioned in the declaration. -/
def Struct.mentions (d : Struct) : List (Ns × Bytes) := d.bounds ++ d.fields.flatMap Prod.snd

/-- When derived `Deserialize` of a struct is hygienic. -/
structure Struct.DeFits (S : Site) (d : Struct) : Prop where
  common : d.Common S
  ok : S.values (str! "Ok") = some .ok ∧ str! "Ok" ∉ d.cparams
  visitor : d.Unused (str! "__Visitor") d.mentions
  state : d.Unused (str! "__State") d.mentions
  fields : (d.fields.map Prod.fst).Nodup
  out : ∀ f ∈ d.fields, f.1 ≠ str! "__out"
  vars : Free S d.cparams (str! "__out") ∧ Free S d.cparams (str! "__k") ∧ ∀ f ∈ d.fields, Free S d.cparams f.1
  takes : d.fields ≠ [] → Takes S

/-- When derived `Serialize` of a struct is hygienic. -/
structure Struct.SerFits (S : Site) (d : Struct) : Prop where
  common : d.Common S
  map : d.Unused (str! "__Map") d.bounds
  vars : Free S d.cparams (str! "__state")

/-- When derived `Deserialize` of an enum is hygienic. -/
structure Enum.DeFits (S : Site) (d : Enum) : Prop where
  crate : S.types (str! "miniserde") = some .crate
  target : S.types d.name = some .target
  visitor : d.name ≠ str! "__Visitor"
  vars : Free S [] (str! "__out") ∧ Free S [] (str! "s") ∧ Free S [] (str! "value")

/-- When derived `Serialize` of an enum is hygienic. -/
structure Enum.SerFits (S : Site) (d : Enum) : Prop where
  crate : S.types (str! "miniserde") = some .crate
  target : S.types d.name = some .target

end Miniserde.Expand
