import Verif.Model.Basic

/-!
# The names in the code the derive macros generate, and what they mean where the macro is used

`quote!` gives every identifier it writes the span of the call site, so the generated code has no hygiene: each name is looked up in the module in which the
user wrote `#[derive(Serialize, Deserialize)]`.  This file has the names of the four expansions with their binding structure, and Rust's resolution
of them: local variables and generic parameters first, then the items of the surrounding `const _: () = { .. }` block, then the module (its items, imports and
preludes, all given by a `Site`).

Not modelled: lifetimes (`Model/Bound.lean`), keywords (`self`, `Self`, `dyn`), string and number literals (`Model/Derive.lean`), operators, `allow` and `repr`
attributes, macro invocations in the user's types.
-/

namespace Miniserde.Expand

/-- Rust's namespaces (external). `arg`: a generic argument that is a single identifier, which names a type if there is a type of that name in scope, otherwise a
constant.  `derive/src/de.rs:58,66,73,91` (`#ty_generics`). -/
inductive Ns where
  | ty
  | val
  | arg
  deriving DecidableEq

/-- What the paths of the crate lead to: `src/lib.rs:179-202`, `src/export.rs:1-22`. -/
inductive Lib where
  | option | box | cow | str | usize          -- `core::option::Option` etc.
  | some | none | ok | err
  | result | error
  | deserialize | serialize
  | visitor | deMap | serMap | fragment
  | deserializeBegin | deserializeDefault     -- `Deserialize::begin`, `Deserialize::default`
  | boxNew | cowBorrowed | fragmentMap | fragmentStr
  | ignore                                    -- `<dyn Visitor>::ignore`
  deriving DecidableEq

/-- The public modules of the crate that the generated code uses: `src/lib.rs:182,194,196`. -/
inductive Mod where
  | root | de | ser | priv
  deriving DecidableEq

/-- A member of a module: a module or an item. `src/lib.rs:182-202`. -/
inductive Member where
  | mod (m : Mod)
  | item (l : Lib)
  deriving DecidableEq

/-- The members of the modules of the crate, by namespace: `src/lib.rs:182-202` (root), `src/de/mod.rs` (`de`: `Deserialize`, `Visitor`, `Map`), `src/ser/mod.rs` (`ser`: `Serialize`,
`Fragment`, `Map`), `src/export.rs:4-22` (`__private`).  `Error` (`src/error.rs:8`) is a unit struct: a type and a value. -/
def members : List (Mod × Ns × Bytes × Member) :=
  [(.root, .ty, str! "__private", .mod .priv),
   (.root, .ty, str! "de", .mod .de),
   (.root, .ty, str! "ser", .mod .ser),
   (.root, .ty, str! "Deserialize", .item .deserialize),
   (.root, .ty, str! "Serialize", .item .serialize),
   (.root, .ty, str! "Error", .item .error),
   (.root, .val, str! "Error", .item .error),
   (.root, .ty, str! "Result", .item .result),
   (.de, .ty, str! "Deserialize", .item .deserialize),
   (.de, .ty, str! "Visitor", .item .visitor),
   (.de, .ty, str! "Map", .item .deMap),
   (.ser, .ty, str! "Serialize", .item .serialize),
   (.ser, .ty, str! "Fragment", .item .fragment),
   (.ser, .ty, str! "Map", .item .serMap),
   (.priv, .val, str! "None", .item .none),
   (.priv, .val, str! "Some", .item .some),
   (.priv, .val, str! "Err", .item .err),
   (.priv, .val, str! "Ok", .item .ok),
   (.priv, .ty, str! "Box", .item .box),
   (.priv, .ty, str! "Cow", .item .cow),
   (.priv, .ty, str! "Option", .item .option),
   (.priv, .ty, str! "str", .item .str),
   (.priv, .ty, str! "usize", .item .usize)]

/-- The associated functions and variants used by the generated code: `src/de/mod.rs` (`Deserialize::begin`, `default`), `src/ser/mod.rs` (`Fragment::Map`, `Fragment::Str`),
`src/ignore.rs:7` (`ignore`), `Box::new`, `Cow::Borrowed` (external). -/
def assocs : List (Lib × Bytes × Lib) :=
  [(.deserialize, str! "begin", .deserializeBegin),
   (.deserialize, str! "default", .deserializeDefault),
   (.box, str! "new", .boxNew),
   (.cow, str! "Borrowed", .cowBorrowed),
   (.fragment, str! "Map", .fragmentMap),
   (.fragment, str! "Str", .fragmentStr),
   (.visitor, str! "ignore", .ignore)]

/-- A name in a module of the crate: `src/lib.rs:182-202`. -/
def member (m : Mod) (ns : Ns) (x : Bytes) : Option Member :=
  (members.find? fun e => e.1 == m && e.2.1 == ns && e.2.2.1 == x).map fun e => e.2.2.2

/-- A path inside the crate (Rust's path resolution; external): all segments but the last are looked up among types and modules.  `src/lib.rs:182-202`. -/
def inCrate (m : Mod) (ns : Ns) : List Bytes → Option Lib
  | [] => none
  | [x] =>
    match member m ns x with
    | some (.item l) => some l
    | _ => none
  | x :: y :: rest =>
    match member m .ty x with
    | some (.mod m') => inCrate m' ns (y :: rest)
    | some (.item l) =>
      match rest with
      | [] => (assocs.find? fun e => e.1 == l && e.2.1 == y).map fun e => e.2.2
      | _ => none
    | none => none

/-- What a name of the module may stand for: the crate `miniserde`, the type the macro is applied to, `Ok` of the prelude, or anything else.  The environment of
`derive/src/de.rs:53-114`. -/
inductive Entity where
  | crate
  | target
  | ok
  | other (n : Nat)
  deriving DecidableEq

/-- How a method takes its receiver (external; for `derive/src/de.rs:103`). -/
inductive Recv where
  | val | ref | mut
  deriving DecidableEq

/-- The place where the macro is used (environment of `derive/src/de.rs:53-114`, `derive/src/ser.rs:53-86`): what names of the module (items, imports, preludes) stand for, which of
the names are values that an identifier in a pattern cannot shadow (constants, statics, unit structs, unit variants, constructors), and which methods the traits in
scope give to `Option<T>`. -/
structure Site where
  types : Bytes → Option Entity
  values : Bytes → Option Entity
  fixed : Bytes → Bool
  methods : Bytes → Recv → Bool

/-- What a path turns out to mean. `site`: something of the user's module.  For `derive/src/de.rs:53-114`. -/
inductive Meaning where
  | lib (l : Lib)
  | target
  | variant (v : Bytes)
  | param (n : Bytes)
  | var (n : Bytes)
  | helper (n : Bytes)
  | site (n : Nat)
  | unresolved
  deriving DecidableEq

/-- The names bound around a place in the generated code: variables, generic parameters, items of the `const` block.  `derive/src/de.rs:55-113`. -/
structure Scope where
  vars : List Bytes
  tparams : List Bytes
  cparams : List Bytes
  items : List Bytes

/-- A path in the generated code, by its origin in the macro: `derive/src/de.rs:53-114`.  `lib`: written out in `quote!`, starting with `miniserde`; `ok`: the `Ok` of line 75; `ident`: `#ident`; `variant`:
`#ident::#var_idents`; `tparam`, `cparam`: in `#ty_generics` or `#param: ..`; `helper`: `__Visitor`, `__State`, `__Map`; `var`: a variable. -/
inductive Src where
  | lib (ns : Ns) (path : List Bytes)
  | ok
  | ident
  | variant (v : Bytes)
  | tparam (n : Bytes)
  | cparam (n : Bytes)
  | helper (n : Bytes)
  | var (n : Bytes)
  deriving DecidableEq

/-- The tokens written, given the name of the type: `derive/src/de.rs:53-114`, `:144-175`; `derive/src/ser.rs:53-86`, `:116-131`. -/
def Src.tokens (ident : Bytes) : Src → Ns × List Bytes
  | .lib ns p => (ns, str! "miniserde" :: p)
  | .ok => (.val, [str! "Ok"])
  | .ident => (.ty, [ident])
  | .variant v => (.val, [ident, v])
  | .tparam n => (.arg, [n])
  | .cparam n => (.arg, [n])
  | .helper n => (.ty, [n])
  | .var n => (.val, [n])

/-- Where an entity of the module is reached by a path of one segment.  For `derive/src/de.rs:53-114`. -/
def Entity.meaning : Entity → Meaning
  | .crate => .unresolved
  | .target => .target
  | .ok => .lib .ok
  | .other n => .site n

/-- A type name: generic parameters, items of the block, module (Rust's scoping; external).  For `derive/src/de.rs:53-114`. -/
def Scope.type (S : Site) (sc : Scope) (x : Bytes) : Option (Entity ⊕ Meaning) :=
  if x ∈ sc.tparams then some (.inr (.param x))
  else if x ∈ sc.items then some (.inr (.helper x))
  else (S.types x).map .inl

/-- A value name: variables, constant parameters, module.  The items of the block are structs with named fields and hence no values.  For `derive/src/de.rs:53-114`. -/
def Scope.value (S : Site) (sc : Scope) (x : Bytes) : Option (Entity ⊕ Meaning) :=
  if x ∈ sc.vars then some (.inr (.var x))
  else if x ∈ sc.cparams then some (.inr (.param x))
  else (S.values x).map .inl

/-- The meaning of what was found.  For `derive/src/de.rs:53-114`. -/
def found : Option (Entity ⊕ Meaning) → Meaning
  | some (.inl e) => e.meaning
  | some (.inr m) => m
  | none => .unresolved

/-- A path of one segment.  For `derive/src/de.rs:53-114`. -/
def Scope.name (S : Site) (sc : Scope) (ns : Ns) (x : Bytes) : Meaning :=
  match ns with
  | .ty => found (sc.type S x)
  | .val => found (sc.value S x)
  | .arg =>
    match sc.type S x with
    | some r => found (some r)
    | none => found (sc.value S x)

/-- A path: the first of several segments is looked up among types, modules and crates.  For `derive/src/de.rs:53-114`. -/
def Scope.path (S : Site) (sc : Scope) (ns : Ns) : List Bytes → Meaning
  | [] => .unresolved
  | [x] => sc.name S ns x
  | x :: y :: rest =>
    match sc.type S x with
    | some (.inl .crate) =>
      match inCrate .root ns (y :: rest) with
      | some l => .lib l
      | none => .unresolved
    | some (.inl .target) => if rest = [] then .variant y else .unresolved
    | some (.inl (.other n)) => .site n
    | _ => .unresolved

/-- Does an identifier in a pattern introduce a variable?  It does not when the name stands for a constant or the like, or for a constant parameter.  For
`derive/src/de.rs:62,92,103,165-166`. -/
def Scope.fresh (S : Site) (sc : Scope) (x : Bytes) : Bool :=
  x ∈ sc.vars || (!(x ∈ sc.cparams) && !(S.fixed x))

/-- The receivers of the methods of `Option` that the generated code calls: `take(&mut self)`, `ok_or(self, err)` (external).  `derive/src/de.rs:103`. -/
def inherent : List (Bytes × Recv) := [(str! "take", .mut), (str! "ok_or", .val)]

/-- Method lookup on a value of type `Option<T>` (external): first methods that take the value, then a shared reference, then a mutable one, and each time inherent methods before those
of traits in scope.  `true`: the method of `Option`.  `derive/src/de.rs:103`. -/
def probe (S : Site) (m : Bytes) : Bool :=
  if (m, Recv.val) ∈ inherent then true
  else if S.methods m .val then false
  else if (m, Recv.ref) ∈ inherent then true
  else if S.methods m .ref then false
  else (m, Recv.mut) ∈ inherent

/-- The names of generated code with their binding structure. `derive/src/de.rs:53-114`.  `copied`: an identifier in tokens copied from the user's declaration; `generics`: an item with the user's
type and constant parameters; `items`: the `const` block; `bind`: a parameter or `let`, and the code in which it is visible; `fields`: the
fields of a struct declaration; `method`: a method call on an `Option`. -/
inductive Tm where
  | nil
  | seq (a b : Tm)
  | use (src : Src)
  | copied (ns : Ns) (x : Bytes)
  | generics (tparams cparams : List Bytes) (body : Tm)
  | items (names : List Bytes) (body : Tm)
  | bind (x : Bytes) (body : Tm)
  | fields (names : List Bytes)
  | method (m : Bytes)

/-- `#( .. )*` and juxtaposition. `derive/src/de.rs:53-114`. -/
def Tm.all : List Tm → Tm
  | [] => .nil
  | t :: ts => .seq t (Tm.all ts)

/-- A name in the generated code and what becomes of it. `derive/src/de.rs:53-114`. -/
inductive Occ where
  | path (src : Src) (m : Meaning)
  | copied (ns : Ns) (x : Bytes) (m : Meaning)
  | binder (x : Bytes) (fresh : Bool)
  | fields (names : List Bytes)
  | method (m : Bytes) (ofOption : Bool)

/-- All names of generated code, resolved. `derive/src/de.rs:53-114`. -/
def Tm.occs (S : Site) (ident : Bytes) : Tm → Scope → List Occ
  | .nil, _ => []
  | .seq a b, sc => a.occs S ident sc ++ b.occs S ident sc
  | .use src, sc => [.path src (sc.path S (src.tokens ident).1 (src.tokens ident).2)]
  | .copied ns x, sc => [.copied ns x (sc.name S ns x)]
  | .generics ts cs body, sc => body.occs S ident { sc with tparams := ts, cparams := cs }
  | .items ns body, sc => body.occs S ident { sc with items := ns }
  | .bind x body, sc => .binder x (sc.fresh S x) :: body.occs S ident { sc with vars := x :: sc.vars }
  | .fields ns, _ => [.fields ns]
  | .method m, _ => [.method m (probe S m)]

/-- The struct the macro is applied to: its name, type and constant parameters, the names mentioned in the bounds of its parameters and in its where clause, and its fields with the names
mentioned in their types.  `derive/src/de.rs:36-51`. -/
structure Struct where
  name : Bytes
  tparams : List Bytes
  cparams : List Bytes
  bounds : List (Ns × Bytes)
  fields : List (Bytes × List (Ns × Bytes))

/-- The enum the macro is applied to. `derive/src/de.rs:117-142`. -/
structure Enum where
  name : Bytes
  variants : List Bytes

section Fragments

/-- `miniserde::__private::Option` etc. `derive/src/de.rs:53-114`. -/
def priv (ns : Ns) (x : Bytes) : Tm := .use (.lib ns [str! "__private", x])

/-- `miniserde::Deserialize` etc. `derive/src/de.rs:53-114`. -/
def root (ns : Ns) (x : Bytes) : Tm := .use (.lib ns [x])

/-- User tokens. `derive/src/de.rs:57,84,86`. -/
def copy (ms : List (Ns × Bytes)) : Tm := .all (ms.map fun p => .copied p.1 p.2)

/-- `#ident #ty_generics`, `__Visitor #ty_generics`. `derive/src/de.rs:58,61,66,73,88,91`. -/
def applied (d : Struct) (head : Src) : Tm :=
  .seq (.use head) (.seq (.all (d.tparams.map fun n => .use (.tparam n))) (.all (d.cparams.map fun n => .use (.cparam n))))

/-- `#bounded_where_clause` (`derive/src/bound.rs:39-51`): the user's where clause and `#param: trait` for every type parameter. -/
def bounded (d : Struct) (trait : Bytes) : Tm :=
  .seq (copy d.bounds) (.all (d.tparams.map fun n => .seq (.use (.tparam n)) (root .ty trait)))

/-- An item with `#impl_generics` and (in `bounds`) the where clause: `derive/src/de.rs:57,61,73,84,91`. -/
def item (d : Struct) (body : Tm) : Tm := .generics d.tparams d.cparams (.seq (copy d.bounds) body)

end Fragments

/-- `&mut *{ __out as *mut Option<Self> as *mut __Visitor #ty_generics }`: `derive/src/de.rs:62-70`, `:151-159`. -/
def beginBody (visitor : Tm) : Tm :=
  .all [priv .ty (str! "Option"), .use (.lib .ty [str! "de", str! "Visitor"]),
    .bind (str! "__out") (.all [.use (.var (str! "__out")), priv .ty (str! "Option"), visitor])]

/-- `let f = self.f.take().ok_or(miniserde::Error)?;` for the fields, then the rest of the body: `derive/src/de.rs:102-104`. -/
def lets : List Bytes → Tm → Tm
  | [], rest => rest
  | f :: fs, rest => .seq (.all [.method (str! "take"), .method (str! "ok_or"), root .val (str! "Error")]) (.bind f (lets fs rest))

/-- The items of derived `Deserialize` of a struct: `derive/src/de.rs:56-112`. -/
def deItems (d : Struct) : List Tm :=
    [ -- struct __Visitor { __out: Option<#ident> }, lines 56-59
      item d (.all [.fields [str! "__out"], priv .ty (str! "Option"), applied d .ident]),
      -- impl Deserialize for #ident, lines 61-71
      item d (.all [root .ty (str! "Deserialize"), applied d .ident, bounded d (str! "Deserialize"),
        beginBody (applied d (.helper (str! "__Visitor")))]),
      -- impl Visitor for __Visitor, lines 73-82
      item d (.all [.use (.lib .ty [str! "de", str! "Visitor"]), applied d (.helper (str! "__Visitor")), bounded d (str! "Deserialize"),
        root .ty (str! "Result"), priv .ty (str! "Box"), .use (.lib .ty [str! "de", str! "Map"]),
        .use .ok, .use (.lib .val [str! "__private", str! "Box", str! "new"]), .use (.helper (str! "__State")),
        .all (d.fields.map fun _ => .use (.lib .val [str! "Deserialize", str! "default"]))]),
      -- struct __State, lines 84-89
      item d (.all [.fields (d.fields.map Prod.fst ++ [str! "__out"]),
        .all (d.fields.map fun f => .seq (priv .ty (str! "Option")) (copy f.2)),
        priv .ty (str! "Option"), applied d .ident]),
      -- impl Map for __State, lines 91-112
      item d (.all [.use (.lib .ty [str! "de", str! "Map"]), applied d (.helper (str! "__State")), bounded d (str! "Deserialize"),
        -- fn key, lines 92-99
        priv .ty (str! "str"), root .ty (str! "Result"), .use (.lib .ty [str! "de", str! "Visitor"]),
        .bind (str! "__k") (.all [.use (.var (str! "__k")),
          .all (d.fields.map fun _ => .seq (priv .val (str! "Ok")) (.use (.lib .val [str! "Deserialize", str! "begin"]))),
          priv .val (str! "Ok"), .use (.lib .val [str! "de", str! "Visitor", str! "ignore"])]),
        -- fn finish, lines 101-111
        root .ty (str! "Result"),
        lets (d.fields.map Prod.fst) (.all [priv .val (str! "Some"), .use .ident,
          .all (d.fields.map fun f => .use (.var f.1)), priv .val (str! "Ok")])])]

/-- Derived `Deserialize` of a struct: `derive/src/de.rs:53-114`. -/
def deStruct (d : Struct) : Tm := .items [str! "__Visitor", str! "__State"] (.all (deItems d))

/-- Derived `Deserialize` of an enum: `derive/src/de.rs:144-176`. -/
def deEnum (d : Enum) : Tm :=
  .items [str! "__Visitor"] (.all
    [ -- struct __Visitor, lines 147-150
      .fields [str! "__out"], priv .ty (str! "Option"), .use .ident,
      -- impl Deserialize, lines 152-162
      root .ty (str! "Deserialize"), .use .ident, beginBody (.use (.helper (str! "__Visitor"))),
      -- impl Visitor, lines 164-173
      .use (.lib .ty [str! "de", str! "Visitor"]), .use (.helper (str! "__Visitor")), priv .ty (str! "str"), root .ty (str! "Result"),
      .bind (str! "s") (.all [.use (.var (str! "s")), .all (d.variants.map fun v => .use (.variant v)), priv .val (str! "Err"), root .val (str! "Error"),
        .bind (str! "value") (.all [priv .val (str! "Some"), .use (.var (str! "value")), priv .val (str! "Ok")])])])

/-- The items of derived `Serialize` of a struct: `derive/src/ser.rs:56-84`. -/
def serItems (d : Struct) : List Tm :=
    [ -- impl Serialize for #ident, lines 56-63
      item d (.all [root .ty (str! "Serialize"), applied d .ident, bounded d (str! "Serialize"),
        .use (.lib .ty [str! "ser", str! "Fragment"]), .use (.lib .val [str! "ser", str! "Fragment", str! "Map"]),
        .use (.lib .val [str! "__private", str! "Box", str! "new"]), .use (.helper (str! "__Map"))]),
      -- struct __Map, lines 65-68
      item d (.all [.fields [str! "data", str! "state"], applied d .ident, priv .ty (str! "usize")]),
      -- impl Map for __Map, lines 70-84
      item d (.all [.use (.lib .ty [str! "ser", str! "Map"]), applied d (.helper (str! "__Map")), bounded d (str! "Serialize"),
        priv .ty (str! "Option"), priv .ty (str! "Cow"), priv .ty (str! "str"), root .ty (str! "Serialize"),
        .bind (str! "__state") (.all [.use (.var (str! "__state")), .use (.var (str! "__state")),
          .all (d.fields.map fun _ => .seq (priv .val (str! "Some")) (.use (.lib .val [str! "__private", str! "Cow", str! "Borrowed"]))),
          priv .val (str! "None")])])]

/-- Derived `Serialize` of a struct: `derive/src/ser.rs:53-86`. -/
def serStruct (d : Struct) : Tm := .items [str! "__Map"] (.all (serItems d))

/-- Derived `Serialize` of an enum: `derive/src/ser.rs:116-132`. -/
def serEnum (d : Enum) : Tm :=
  .all [root .ty (str! "Serialize"), .use .ident, .use (.lib .ty [str! "ser", str! "Fragment"]),
    .all (d.variants.map fun v => .all [.use (.variant v), .use (.lib .val [str! "ser", str! "Fragment", str! "Str"]),
      .use (.lib .val [str! "__private", str! "Cow", str! "Borrowed"])])]

/-- The scope around the `const` block. `derive/src/de.rs:53-55`. -/
def Scope.top : Scope := ⟨[], [], [], []⟩

end Miniserde.Expand
