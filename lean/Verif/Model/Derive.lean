import Verif.Model.Types

/-!
# The derive macros

`derive/src/{attr,de,ser,fallback}.rs` over an abstract syntax of derive inputs.  `syn`'s parsing is external; of it only
`parse_nested_meta` is modelled, on tokens.  The expansion is modelled by the parts of the generated code that depend on the input (the arms of the
generated `match`es and the lists of fields); the fixed parts of the generated code are modelled in `Model/Visitors.lean` (derived struct
and enum) and `Model/SerLib.lean`.  Generics of structs (which only pass through) and spans and messages of errors are not modelled.
-/

namespace Miniserde

/-- A Rust identifier as `proc_macro2::Ident` has it: raw (`r#type`) or not. `derive/src/attr.rs:1,42-44`. -/
structure RIdent where
  raw : Bool
  name : Bytes
  deriving DecidableEq

/-- `Ident::to_string`. `derive/src/attr.rs:43`. -/
def RIdent.toStr (i : RIdent) : Bytes := if i.raw then str! "r#" ++ i.name else i.name

/-- Tokens inside `#[serde(...)]`; a path is one token, the list of its segments (a leading `::` is an empty first segment). `derive/src/attr.rs:13-24`. -/
inductive MTok where
  | path (segments : List Bytes)
  | str (s : Bytes)
  | eq
  | comma
  | other
  deriving DecidableEq

/-- The arguments of an attribute: `#[path(tokens)]` or not (`#[path]`, `#[path = ...]`). `derive/src/attr.rs:13`. -/
inductive AttrArgs where
  | list (ts : List MTok)
  | notList

/-- `syn::Attribute`: `derive/src/attr.rs:2,8-13`. -/
structure Attr where
  path : List Bytes
  args : AttrArgs

/-- `syn::Fields`, as far as enum variants are concerned. `derive/src/de.rs:130-137`. -/
inductive VariantFields where
  | unit | named | unnamed
  deriving DecidableEq

/-- `syn::Field`: `derive/src/de.rs:40-46`, `derive/src/attr.rs:31-33`. -/
structure DField where
  ident : RIdent
  attrs : List Attr
  ty : Ty

/-- `syn::Variant`: `derive/src/de.rs:127-142`, `derive/src/attr.rs:37-39`. -/
structure DVariant where
  ident : RIdent
  attrs : List Attr
  fields : VariantFields

/-- `syn::Data`. `derive/src/de.rs:18-34`, `derive/src/ser.rs:18-34`. -/
inductive DData where
  | structNamed (fields : List DField)
  | structUnnamed
  | structUnit
  | enum (variants : List DVariant)
  | union

/-- `syn::DeriveInput`.  `attrs`: the attributes of the item itself. `derive/src/de.rs:8,18`, `derive/src/ser.rs:8,18`. -/
structure DeriveInput where
  ident : RIdent
  attrs : List Attr
  hasGenericParams : Bool
  hasWhereClause : Bool
  data : DData

/-! ## attr.rs -/

/-- `Path::is_ident`. `derive/src/attr.rs:9,14`. -/
def isIdent (p : List Bytes) (s : Bytes) : Bool := p == [s]

/-- `derive/src/attr.rs:13-24`: the closure given to `parse_nested_meta`: the path has been read, `ts` follows. -/
def renameLogic (rename : Option Bytes) (path : List Bytes) (ts : List MTok) : Option (Option Bytes × List MTok) :=
  if isIdent path (str! "rename") then
    match ts with
    | .eq :: .str s :: ts' => if rename.isSome then none else some (some s, ts')
    | _ => none
  else none

/-- `syn::meta::parse_nested_meta` (external): path, closure, then end or a comma; a trailing comma is allowed.  `fuel` bounds the number of
items; the number of tokens is enough. `derive/src/attr.rs:13-24`. -/
def nestedMeta : Nat → Option Bytes → List MTok → Option (Option Bytes)
  | fuel + 1, rename, .path p :: ts =>
    match renameLogic rename p ts with
    | none => none
    | some (rename', []) => some rename'
    | some (rename', [.comma]) => some rename'
    | some (rename', .comma :: ts') => nestedMeta fuel rename' ts'
    | some _ => none
  | _, _, _ => none

/-- `syn::Attribute::parse_nested_meta` (external): an error unless the attribute has a list; an empty list is fine. `derive/src/attr.rs:13`. -/
def parseNestedMeta (rename : Option Bytes) : AttrArgs → Option (Option Bytes)
  | .notList => none
  | .list [] => some rename
  | .list ts => nestedMeta ts.length rename ts

/-- `derive/src/attr.rs:8-25`: the loop over the attributes. -/
def attrRenameLoop : Option Bytes → List Attr → Option (Option Bytes)
  | rename, [] => some rename
  | rename, a :: as =>
    if !isIdent a.path (str! "serde") then attrRenameLoop rename as
    else match parseNestedMeta rename a.args with
      | none => none
      | some rename' => attrRenameLoop rename' as

/-- `derive/src/attr.rs:5-28` `attr_rename`. -/
def attrRename (attrs : List Attr) : Option (Option Bytes) := attrRenameLoop none attrs

/-- `derive/src/attr.rs:42-44` `unraw`: `trim_start_matches("r#")`. -/
def unraw : Bytes → Bytes
  | 0x72 :: 0x23 :: s => unraw s
  | s => s

/-- `derive/src/attr.rs:31-34` `name_of_field`. -/
def nameOfField (f : DField) : Option Bytes := (attrRename f.attrs).map fun r => r.getD (unraw f.ident.toStr)

/-- `derive/src/attr.rs:37-40` `name_of_variant`. -/
def nameOfVariant (v : DVariant) : Option Bytes := (attrRename v.attrs).map fun r => r.getD (unraw v.ident.toStr)

/-- `collect::<Result<Vec<_>>>`. `derive/src/de.rs:46,137,142`, `derive/src/ser.rs:45,109,114`. -/
def collectAll {α β : Type} (f : α → Option β) : List α → Option (List β)
  | [] => some []
  | a :: as => match f a with
    | none => none
    | some b => match collectAll f as with
      | none => none
      | some bs => some (b :: bs)

/-! ## Expansions -/

/-- What the generated `Deserialize` impl depends on. `derive/src/de.rs:53-114,144-175`. -/
inductive DeImpl where
  /-- `derive/src/de.rs:53-114`: the fields of `__State` with their types, the arms of the `match` in `key`, the fields taken in `finish` and the
  fields of the constructor. -/
  | strct (state : List (RIdent × Ty)) (keyArms : List (Bytes × RIdent)) (takes : List RIdent) (ctor : List RIdent)
  /-- `derive/src/de.rs:144-175`: the arms of the `match` in `string`. -/
  | enm (arms : List (Bytes × RIdent))

/-- What the generated `Serialize` impl depends on. `derive/src/ser.rs:53-86,116-131`. -/
inductive SerImpl where
  /-- `derive/src/ser.rs:53-86`: the arms of the `match` in `next`. -/
  | strct (nextArms : List (Nat × Bytes × RIdent))
  /-- `derive/src/ser.rs:116-131`: the arms of the `match` in `begin`. -/
  | enm (arms : List (RIdent × Bytes))

/-- The tokens a derive macro returns: an impl, or a compile error with an impl that is never run. `derive/src/de.rs:8-16`, `derive/src/ser.rs:8-16`. -/
inductive Expansion (α : Type) where
  | impl (a : α)
  | compileError

/-- `derive/src/de.rs:36-115` `derive_struct`. -/
def deStruct (fields : List DField) : Option DeImpl :=
  let fieldname := fields.map (·.ident)
  match collectAll nameOfField fields with
  | none => none
  | some fieldstr => some (.strct (fieldname.zip (fields.map (·.ty))) (fieldstr.zip fieldname) fieldname fieldname)

/-- `derive/src/de.rs:127-137`, `derive/src/ser.rs:99-109`: only unit variants. -/
def unitVariant (v : DVariant) : Option RIdent := if v.fields = .unit then some v.ident else none

/-- `derive/src/de.rs:117-176` `derive_enum`. -/
def deEnum (input : DeriveInput) (variants : List DVariant) : Option DeImpl :=
  if input.hasGenericParams || input.hasWhereClause then none
  else match collectAll unitVariant variants with
    | none => none
    | some idents => match collectAll nameOfVariant variants with
      | none => none
      | some names => some (.enm (names.zip idents))

/-- `derive/src/de.rs:18-34` `try_expand`. -/
def deTryExpand (input : DeriveInput) : Option DeImpl :=
  match input.data with
  | .structNamed fields => deStruct fields
  | .enum variants => deEnum input variants
  | .structUnnamed | .structUnit => none
  | .union => none

/-- `derive/src/de.rs:8-16` `derive`, `derive/src/fallback.rs:23-39`. -/
def deriveDe (input : DeriveInput) : Expansion DeImpl :=
  match deTryExpand input with
  | some i => .impl i
  | none => .compileError

/-- `derive/src/ser.rs:36-87` `derive_struct`: `index` counts from 0. -/
def serStruct (fields : List DField) : Option SerImpl :=
  let fieldname := fields.map (·.ident)
  match collectAll nameOfField fields with
  | none => none
  | some fieldstr => some (.strct ((List.range fieldname.length).zip (fieldstr.zip fieldname)))

/-- `derive/src/ser.rs:89-132` `derive_enum`. -/
def serEnum (input : DeriveInput) (variants : List DVariant) : Option SerImpl :=
  if input.hasGenericParams || input.hasWhereClause then none
  else match collectAll unitVariant variants with
    | none => none
    | some idents => match collectAll nameOfVariant variants with
      | none => none
      | some names => some (.enm (idents.zip names))

/-- `derive/src/ser.rs:18-34` `try_expand`. -/
def serTryExpand (input : DeriveInput) : Option SerImpl :=
  match input.data with
  | .structNamed fields => serStruct fields
  | .enum variants => serEnum input variants
  | .structUnnamed | .structUnit => none
  | .union => none

/-- `derive/src/ser.rs:8-16` `derive`, `derive/src/fallback.rs:5-21`. -/
def deriveSer (input : DeriveInput) : Expansion SerImpl :=
  match serTryExpand input with
  | some i => .impl i
  | none => .compileError

/-! ## The generated matches -/

/-- The generated `match __k` of `key` and `match s` of `string`: the first arm with that string. `derive/src/de.rs:93-98,166-169`. -/
def strMatch (arms : List (Bytes × RIdent)) (k : Bytes) : Option RIdent := (arms.find? fun a => a.1 == k).map Prod.snd

/-- The generated `match __state` of `next`. `derive/src/ser.rs:74-82`. -/
def stateMatch (arms : List (Nat × Bytes × RIdent)) (n : Nat) : Option (Bytes × RIdent) := (arms.find? fun a => a.1 == n).map Prod.snd

/-- The generated `match self` of an enum's `begin`: the first arm with that variant. `derive/src/ser.rs:121-127`. -/
def variantMatch (arms : List (RIdent × Bytes)) (v : RIdent) : Option Bytes := (arms.find? fun a => a.1 == v).map Prod.snd

end Miniserde
