import Verif.Model.Derive

/-!
# Which derive inputs are supported, and which names they define
-/

namespace Miniserde

/-- The arguments `rename = "s₁", rename = "s₂", ...` of one attribute (a trailing comma is allowed). -/
inductive Renames : List MTok → List Bytes → Prop
  | nil : Renames [] []
  | one (s : Bytes) : Renames [.path [str! "rename"], .eq, .str s] [s]
  | cons (s : Bytes) {ts : List MTok} {ss : List Bytes} (h : Renames ts ss) :
      Renames (.path [str! "rename"] :: .eq :: .str s :: .comma :: ts) (s :: ss)

/-- The renames of a list of attributes; attributes other than `#[serde(...)]` do not matter. -/
inductive AttrRenames : List Attr → List Bytes → Prop
  | nil : AttrRenames [] []
  | skip {a : Attr} {as : List Attr} {ss : List Bytes} (ha : a.path ≠ [str! "serde"]) (h : AttrRenames as ss) : AttrRenames (a :: as) ss
  | serde {ts : List MTok} {as : List Attr} {s ss : List Bytes} (ha : Renames ts s) (h : AttrRenames as ss) :
      AttrRenames (⟨[str! "serde"], .list ts⟩ :: as) (s ++ ss)

/-- The name a field or variant gets: that of its only rename, or its identifier without `r#`. -/
def HasName (attrs : List Attr) (ident : RIdent) (name : Bytes) : Prop :=
  AttrRenames attrs [name] ∨ (AttrRenames attrs [] ∧ name = ident.name)

/-- Identifiers contain no `#`. -/
def RIdent.Ok (i : RIdent) : Prop := (0x23 : UInt8) ∉ i.name

/-- The identifiers of the input are identifiers. -/
def DeriveInput.Ok (input : DeriveInput) : Prop :=
  match input.data with
  | .structNamed fs => ∀ f ∈ fs, f.ident.Ok
  | .enum vs => ∀ v ∈ vs, v.ident.Ok
  | _ => True

/-- The names of all fields, in order. -/
inductive FieldNames : List DField → List Bytes → Prop
  | nil : FieldNames [] []
  | cons {f : DField} {fs : List DField} {n : Bytes} {ns : List Bytes} (h : HasName f.attrs f.ident n) (hs : FieldNames fs ns) :
      FieldNames (f :: fs) (n :: ns)

/-- The names of all variants, in order; there are only unit variants. -/
inductive VariantNames : List DVariant → List Bytes → Prop
  | nil : VariantNames [] []
  | cons {v : DVariant} {vs : List DVariant} {n : Bytes} {ns : List Bytes} (hu : v.fields = .unit) (h : HasName v.attrs v.ident n)
      (hs : VariantNames vs ns) : VariantNames (v :: vs) (n :: ns)

/-- The supported inputs and their lists of names: structs with named fields, and enums without generics, where clause and data. -/
inductive Supported : DeriveInput → List Bytes → Prop
  | strct {id : RIdent} {attrs : List Attr} {g w : Bool} {fs : List DField} {ns : List Bytes} (h : FieldNames fs ns) :
      Supported ⟨id, attrs, g, w, .structNamed fs⟩ ns
  | enm {id : RIdent} {attrs : List Attr} {vs : List DVariant} {ns : List Bytes} (h : VariantNames vs ns) :
      Supported ⟨id, attrs, false, false, .enum vs⟩ ns

end Miniserde
