import Verif.Model.Code
import Verif.Model.Derive

/-!
# The macros as functions from declarations to code

`Model/Derive.lean` gives the parts of the expansion that depend on the input; here is the expansion as a whole.
-/

namespace Miniserde.Code

/-- The fields with their names in documents: `derive/src/de.rs:40-46`, `derive/src/ser.rs:40-45`. -/
def inputFields (fields : List DField) : Option (List (Field Ty)) :=
  match collectAll nameOfField fields with
  | none => none
  | some names => some ((fields.zip names).map fun p => ⟨p.1.ident.name, p.2, p.1.ty⟩)

/-- The variants with their names in documents: `derive/src/de.rs:127-142`, `derive/src/ser.rs:99-114`. -/
def inputVariants (variants : List DVariant) : Option (List Variant) :=
  match collectAll unitVariant variants with
  | none => none
  | some idents => match collectAll nameOfVariant variants with
    | none => none
    | some names => some ((idents.zip names).map fun p => ⟨p.1.name, p.2⟩)

/-- `derive/src/de.rs:118-123`, `derive/src/ser.rs:90-95`: enums with generics are rejected. -/
def plainVariants (input : DeriveInput) (variants : List DVariant) : Option (List Variant) :=
  if input.hasGenericParams || input.hasWhereClause then none else inputVariants variants

/-- `#[derive(Deserialize)]`: `derive/src/de.rs:8-34`. -/
def macroDe (input : DeriveInput) : Expansion Ty :=
  match input.data with
  | .structNamed fields =>
    match inputFields fields with
    | some fs => deStruct fs
    | none => deFallback
  | .enum variants =>
    match plainVariants input variants with
    | some vs => deEnum vs
    | none => deFallback
  | _ => deFallback

/-- `#[derive(Serialize)]`: `derive/src/ser.rs:8-34`. -/
def macroSer (input : DeriveInput) : Expansion Ty :=
  match input.data with
  | .structNamed fields =>
    match inputFields fields with
    | some fs => serStruct fs
    | none => serFallback
  | .enum variants =>
    match plainVariants input variants with
    | some vs => serEnum vs
    | none => serFallback
  | _ => serFallback

end Miniserde.Code
