import Verif.Model.Expand

/-!
# The code the derive macros generate, as syntax

`Model/Expand.lean` has the names of the four expansions, `Model/Derive.lean` the parts that depend on the input.  This file has the expansions themselves: items, types, signatures and
bodies, as syntax trees of the part of Rust that they use.  `Spec/CodeTypes.lean` says when such code type-checks and `Spec/CodeRun.lean` runs it.  `α`: the types of the user's fields, whatever they
are.  A struct's fields are named by identifiers without `r#` (`r#f` and `f` are the same identifier in Rust).

Not in the syntax: lifetimes and lifetime parameters (`Model/Bound.lean`), attributes (`allow`, `repr`).  Generics of an item are given by whether it has the plain where clause or the one with bounds.
-/

namespace Miniserde.Code

open Expand (Src Ns)

/-- Types in the generated code. `derive/src/de.rs:56-112`, `derive/src/ser.rs:56-71`.  `name`: a path without arguments; `applied`: with the generics of the struct (`#ty_generics`); `app`: with one type
argument; `user`: `#fieldty`. -/
inductive TyX (α : Type) where
  | name (src : Src)
  | applied (src : Src)
  | app (src : Src) (arg : TyX α)
  | self
  | user (a : α)
  | ref (mu : Bool) (t : TyX α)
  | ptr (t : TyX α)
  | dyn (src : Src)
  | tuple (a b : TyX α)
  | unit
  deriving DecidableEq

/-- Patterns: a string, a number, `#ident::#variant`, `_`. `derive/src/de.rs:95,97,167-168`, `derive/src/ser.rs:76,81,123`. -/
inductive Pat where
  | str (s : Bytes)
  | num (n : Nat)
  | variant (v : Bytes)
  | wild
  deriving DecidableEq

mutual

/-- Expressions in the generated code. `derive/src/de.rs:62-111,151-172`, `derive/src/ser.rs:57-82,120-128`, `derive/src/fallback.rs:16-18,34-36`.  `call0`, `call`: functions and constructors with no and one argument;
`take`, `okOr`: methods of `Option`; `get`: `e.f`; `letIn`: `let x = e; body`; `seq`: `a; b`; `quest`: `e?`; `unreachable`: the macro. -/
inductive Ex (α : Type) where
  | path (src : Src)
  | self
  | str (s : Bytes)
  | num (n : Nat)
  | unit
  | get (e : Ex α) (f : Bytes)
  | call0 (f : Src)
  | call (f : Src) (e : Ex α)
  | take (e : Ex α)
  | okOr (e d : Ex α)
  | quest (e : Ex α)
  | ret (e : Ex α)
  | ref (mu : Bool) (e : Ex α)
  | deref (e : Ex α)
  | cast (e : Ex α) (t : TyX α)
  | unsafeBlock (e : Ex α)
  | add (a b : Ex α)
  | pair (a b : Ex α)
  | lit (head : Src) (fs : Flds α)
  | assign (lhs rhs : Ex α)
  | letIn (x : Bytes) (e body : Ex α)
  | seq (a b : Ex α)
  | matches (e : Ex α) (arms : Arms α)
  | unreachable

/-- The fields of a struct literal. `derive/src/de.rs:75-80,105-109`, `derive/src/ser.rs:58-61`. -/
inductive Flds (α : Type) where
  | nil
  | cons (f : Bytes) (e : Ex α) (fs : Flds α)

/-- The arms of a `match`. `derive/src/de.rs:93-98,166-169`, `derive/src/ser.rs:74-82,121-127`. -/
inductive Arms (α : Type) where
  | nil
  | cons (p : Pat) (e : Ex α) (arms : Arms α)

end

/-- How a method takes `self`. `derive/src/de.rs:62,74,92`, `derive/src/ser.rs:57,71`. -/
inductive Recv where
  | no | ref | mut
  deriving DecidableEq

/-- A method of an impl. `derive/src/de.rs:62-70`. -/
structure Fn (α : Type) where
  name : Bytes
  recv : Recv
  param : Option (Bytes × TyX α)
  ret : TyX α
  body : Ex α

/-- Items. `derive/src/de.rs:56-59,61-71`.  `bounded`: with `#bounded_where_clause`, otherwise with `#where_clause`. -/
inductive Item (α : Type) where
  | strct (name : Bytes) (fields : List (Bytes × TyX α))
  | impl (trait : Src) (for_ : TyX α) (bounded : Bool) (fns : List (Fn α))

/-- What an expansion consists of. `error`: it starts with a `compile_error!`; `block`: the items are inside `const _: () = { .. };`. `derive/src/de.rs:53-55`, `derive/src/fallback.rs:11-12,29-30`. -/
structure Expansion (α : Type) where
  error : Bool
  block : Bool
  items : List (Item α)

/-- `for` with a list. `derive/src/de.rs:76-78`. -/
def Flds.ofList {α : Type} : List (Bytes × Ex α) → Flds α
  | [] => .nil
  | (f, e) :: fs => .cons f e (Flds.ofList fs)

/-- `#( .. )*` in a `match`, then the last arm if there is one. `derive/src/de.rs:94-97`. -/
def Arms.ofList {α : Type} : List (Pat × Ex α) → Arms α
  | [] => .nil
  | (p, e) :: as => .cons p e (Arms.ofList as)

section Paths

variable {α : Type}

/-- `miniserde::__private::x` as an expression or a type. `derive/src/de.rs:58`. -/
def priv (ns : Ns) (x : Bytes) : Src := .lib ns [str! "__private", x]

/-- `miniserde::__private::Option<t>`. `derive/src/de.rs:58`. -/
def optionOf (t : TyX α) : TyX α := .app (priv .ty (str! "Option")) t

/-- `miniserde::__private::Box<t>`. `derive/src/de.rs:74`. -/
def boxOf (t : TyX α) : TyX α := .app (priv .ty (str! "Box")) t

/-- `miniserde::Result<t>`. `derive/src/de.rs:74`. -/
def resultOf (t : TyX α) : TyX α := .app (.lib .ty [str! "Result"]) t

/-- `&miniserde::__private::str`. `derive/src/de.rs:92`. -/
def strRef : TyX α := .ref false (.name (priv .ty (str! "str")))

/-- `miniserde::de::Visitor`. `derive/src/de.rs:62`. -/
def visitorSrc : Src := .lib .ty [str! "de", str! "Visitor"]

/-- `&mut dyn miniserde::de::Visitor`. `derive/src/de.rs:62`. -/
def dynVisitor : TyX α := .ref true (.dyn visitorSrc)

/-- `miniserde::Error`. `derive/src/de.rs:103`. -/
def error : Ex α := .path (.lib .val [str! "Error"])

/-- `miniserde::__private::Ok(e)`. `derive/src/de.rs:95`. -/
def okOf (e : Ex α) : Ex α := .call (priv .val (str! "Ok")) e

/-- `miniserde::__private::Some(e)`. `derive/src/de.rs:105`. -/
def someOf (e : Ex α) : Ex α := .call (priv .val (str! "Some")) e

/-- `miniserde::__private::Box::new(e)`. `derive/src/de.rs:75`. -/
def boxNew (e : Ex α) : Ex α := .call (.lib .val [str! "__private", str! "Box", str! "new"]) e

/-- `miniserde::__private::Cow::Borrowed(e)`. `derive/src/ser.rs:77`. -/
def cowBorrowed (e : Ex α) : Ex α := .call (.lib .val [str! "__private", str! "Cow", str! "Borrowed"]) e

/-- A local variable. `derive/src/de.rs:65`. -/
def var (x : Bytes) : Ex α := .path (.var x)

end Paths

/-- A field of the user's struct: its identifier, the name it has in documents (`#fieldstr`), its type. `derive/src/de.rs:40-46`. -/
structure Field (α : Type) where
  ident : Bytes
  wire : Bytes
  ty : α

/-- `fn begin(__out: &mut Option<Self>) -> &mut dyn Visitor { unsafe { &mut *{ __out as *mut Option<Self> as *mut __Visitor } } }`: `derive/src/de.rs:62-70`, `:153-161`. -/
def beginFn {α : Type} (visitor : TyX α) : Fn α :=
  { name := str! "begin"
    recv := .no
    param := some (str! "__out", .ref true (optionOf .self))
    ret := dynVisitor
    body := .unsafeBlock (.ref true (.deref (.cast (.cast (var (str! "__out")) (.ptr (optionOf .self))) (.ptr visitor)))) }

/-- `fn map` of `__Visitor`: `derive/src/de.rs:74-81`. -/
def mapFn {α : Type} (fs : List (Field α)) : Fn α :=
  { name := str! "map"
    recv := .mut
    param := none
    ret := resultOf (boxOf (.dyn (.lib .ty [str! "de", str! "Map"])))
    body := .call .ok (boxNew (.lit (.helper (str! "__State")) (.ofList
      ((fs.map fun f => (f.ident, .call0 (.lib .val [str! "Deserialize", str! "default"]))) ++
        [(str! "__out", .ref true (.get .self (str! "__out")))])))) }

/-- `fn key` of `__State`: `derive/src/de.rs:92-99`. -/
def keyFn {α : Type} (fs : List (Field α)) : Fn α :=
  { name := str! "key"
    recv := .mut
    param := some (str! "__k", strRef)
    ret := resultOf dynVisitor
    body := .matches (var (str! "__k")) (.ofList
      ((fs.map fun f => (.str f.wire, okOf (.call (.lib .val [str! "Deserialize", str! "begin"]) (.ref true (.get .self f.ident))))) ++
        [(.wild, okOf (.call0 (.lib .val [str! "de", str! "Visitor", str! "ignore"])))])) }

/-- `let f = self.f.take().ok_or(miniserde::Error)?;` for the fields: `derive/src/de.rs:102-104`. -/
def takes {α : Type} : List (Field α) → Ex α → Ex α
  | [], body => body
  | f :: fs, body => .letIn f.ident (.quest (.okOr (.take (.get .self f.ident)) error)) (takes fs body)

/-- `fn finish` of `__State`: `derive/src/de.rs:101-111`. -/
def finishFn {α : Type} (fs : List (Field α)) : Fn α :=
  { name := str! "finish"
    recv := .mut
    param := none
    ret := resultOf .unit
    body := takes fs (.seq
      (.assign (.deref (.get .self (str! "__out"))) (someOf (.lit .ident (.ofList (fs.map fun f => (f.ident, var f.ident))))))
      (okOf .unit)) }

/-- Derived `Deserialize` of a struct: `derive/src/de.rs:53-114`. -/
def deStruct {α : Type} (fs : List (Field α)) : Expansion α :=
  { error := false
    block := true
    items := [
      .strct (str! "__Visitor") [(str! "__out", optionOf (.applied .ident))],
      .impl (.lib .ty [str! "Deserialize"]) (.applied .ident) true [beginFn (.applied (.helper (str! "__Visitor")))],
      .impl visitorSrc (.applied (.helper (str! "__Visitor"))) true [mapFn fs],
      .strct (str! "__State") ((fs.map fun f => (f.ident, optionOf (.user f.ty))) ++ [(str! "__out", .ref true (optionOf (.applied .ident)))]),
      .impl (.lib .ty [str! "de", str! "Map"]) (.applied (.helper (str! "__State"))) true [keyFn fs, finishFn fs]] }

/-- A variant of the user's enum: its identifier and its name in documents. `derive/src/de.rs:127-142`. -/
structure Variant where
  ident : Bytes
  wire : Bytes

/-- `fn string` of `__Visitor`: `derive/src/de.rs:165-172`. -/
def stringFn {α : Type} (vs : List Variant) : Fn α :=
  { name := str! "string"
    recv := .mut
    param := some (str! "s", strRef)
    ret := resultOf .unit
    body := .letIn (str! "value")
      (.matches (var (str! "s")) (.ofList ((vs.map fun v => (.str v.wire, .path (.variant v.ident))) ++ [(.wild, .ret (.call (priv .val (str! "Err")) error))])))
      (.seq (.assign (.get .self (str! "__out")) (someOf (var (str! "value")))) (okOf .unit)) }

/-- Derived `Deserialize` of an enum: `derive/src/de.rs:144-175`. -/
def deEnum {α : Type} (vs : List Variant) : Expansion α :=
  { error := false
    block := true
    items := [
      .strct (str! "__Visitor") [(str! "__out", optionOf (.name .ident))],
      .impl (.lib .ty [str! "Deserialize"]) (.name .ident) false [beginFn (.name (.helper (str! "__Visitor")))],
      .impl visitorSrc (.name (.helper (str! "__Visitor"))) false [stringFn vs]] }

/-- `fn begin` of a struct: `derive/src/ser.rs:57-62`. -/
def serBeginFn {α : Type} : Fn α :=
  { name := str! "begin"
    recv := .ref
    param := none
    ret := .name (.lib .ty [str! "ser", str! "Fragment"])
    body := .call (.lib .val [str! "ser", str! "Fragment", str! "Map"]) (boxNew (.lit (.helper (str! "__Map"))
      (.ofList [(str! "data", .self), (str! "state", .num 0)]))) }

/-- `#index => Some((Cow::Borrowed(#fieldstr), &self.data.#fieldname)),` for the fields, the first with index `n`: `derive/src/ser.rs:46,75-80`. -/
def nextArms {α : Type} : Nat → List (Field α) → List (Pat × Ex α)
  | _, [] => []
  | n, f :: fs => (.num n, someOf (.pair (cowBorrowed (.str f.wire)) (.ref false (.get (.get .self (str! "data")) f.ident)))) :: nextArms (n + 1) fs

/-- `fn next` of `__Map`: `derive/src/ser.rs:71-83`. -/
def nextFn {α : Type} (fs : List (Field α)) : Fn α :=
  { name := str! "next"
    recv := .mut
    param := none
    ret := optionOf (.tuple (.app (priv .ty (str! "Cow")) (.name (priv .ty (str! "str")))) (.ref false (.dyn (.lib .ty [str! "Serialize"]))))
    body := .letIn (str! "__state") (.get .self (str! "state"))
      (.seq (.assign (.get .self (str! "state")) (.add (var (str! "__state")) (.num 1)))
        (.matches (var (str! "__state")) (.ofList (nextArms 0 fs ++ [(.wild, .path (priv .val (str! "None")))])))) }

/-- Derived `Serialize` of a struct: `derive/src/ser.rs:53-86`. -/
def serStruct {α : Type} (fs : List (Field α)) : Expansion α :=
  { error := false
    block := true
    items := [
      .impl (.lib .ty [str! "Serialize"]) (.applied .ident) true [serBeginFn],
      .strct (str! "__Map") [(str! "data", .ref false (.applied .ident)), (str! "state", .name (priv .ty (str! "usize")))],
      .impl (.lib .ty [str! "ser", str! "Map"]) (.applied (.helper (str! "__Map"))) true [nextFn fs]] }

/-- `fn begin` of an enum: `derive/src/ser.rs:120-128`. -/
def serEnumFn {α : Type} (vs : List Variant) : Fn α :=
  { name := str! "begin"
    recv := .ref
    param := none
    ret := .name (.lib .ty [str! "ser", str! "Fragment"])
    body := .matches .self (.ofList (vs.map fun v =>
      (.variant v.ident, .call (.lib .val [str! "ser", str! "Fragment", str! "Str"]) (cowBorrowed (.str v.wire))))) }

/-- Derived `Serialize` of an enum: `derive/src/ser.rs:116-131`. -/
def serEnum {α : Type} (vs : List Variant) : Expansion α :=
  { error := false
    block := true
    items := [.impl (.lib .ty [str! "Serialize"]) (.name .ident) false [serEnumFn vs]] }

/-- What `derive(Serialize)` expands to on an error: `derive/src/fallback.rs:5-21`. -/
def serFallback {α : Type} : Expansion α :=
  { error := true
    block := false
    items := [.impl (.lib .ty [str! "Serialize"]) (.applied .ident) false
      [{ name := str! "begin", recv := .ref, param := none, ret := .name (.lib .ty [str! "ser", str! "Fragment"]), body := .unreachable }]] }

/-- What `derive(Deserialize)` expands to on an error: `derive/src/fallback.rs:23-39`. -/
def deFallback {α : Type} : Expansion α :=
  { error := true
    block := false
    items := [.impl (.lib .ty [str! "Deserialize"]) (.applied .ident) false
      [{ name := str! "begin", recv := .no, param := some (str! "__out", .ref true (optionOf .self)), ret := dynVisitor, body := .unreachable }]] }

/-! ## The names in the code

What remains of the code when everything but names and their binding structure is removed.  Here a type of the user is the list of the names in it.  `Props/Code.lean` compares this with `Model/Expand.lean`.
-/

open Expand (Tm)

/-- The names the user mentions in a type. `derive/src/de.rs:41`. -/
abbrev Mentions := List (Ns × Bytes)

/-- The names in a type; `ty_generics` are those of `d`. `derive/src/de.rs:56-112`. -/
def TyX.names (d : Expand.Struct) : TyX Mentions → Tm
  | .name s => .use s
  | .applied s => Expand.applied d s
  | .app s t => .seq (.use s) (t.names d)
  | .self => .nil
  | .user ms => Expand.copy ms
  | .ref _ t => t.names d
  | .ptr t => t.names d
  | .dyn s => .use s
  | .tuple a b => .seq (a.names d) (b.names d)
  | .unit => .nil

/-- The names in a pattern. `derive/src/ser.rs:123`. -/
def Pat.names : Pat → Tm
  | .variant v => .use (.variant v)
  | _ => .nil

mutual

/-- The names in an expression. `derive/src/de.rs:62-111`. -/
def Ex.names (d : Expand.Struct) : Ex Mentions → Tm
  | .path s => .use s
  | .self => .nil
  | .str _ => .nil
  | .num _ => .nil
  | .unit => .nil
  | .get e _ => e.names d
  | .call0 f => .use f
  | .call f e => .seq (.use f) (e.names d)
  | .take e => .seq (e.names d) (.method (str! "take"))
  | .okOr e e' => .seq (e.names d) (.seq (.method (str! "ok_or")) (e'.names d))
  | .quest e => e.names d
  | .ret e => e.names d
  | .ref _ e => e.names d
  | .deref e => e.names d
  | .cast e t => .seq (e.names d) (t.names d)
  | .unsafeBlock e => e.names d
  | .add a b => .seq (a.names d) (b.names d)
  | .pair a b => .seq (a.names d) (b.names d)
  | .lit head fs => .seq (.use head) (fs.names d)
  | .assign l r => .seq (l.names d) (r.names d)
  | .letIn x e body => .seq (e.names d) (.bind x (body.names d))
  | .seq a b => .seq (a.names d) (b.names d)
  | .matches e as => .seq (e.names d) (as.names d)
  | .unreachable => .nil

/-- The names in the fields of a literal. `derive/src/de.rs:75-80`. -/
def Flds.names (d : Expand.Struct) : Flds Mentions → Tm
  | .nil => .nil
  | .cons _ e fs => .seq (e.names d) (fs.names d)

/-- The names in the arms of a `match`. `derive/src/de.rs:93-98`. -/
def Arms.names (d : Expand.Struct) : Arms Mentions → Tm
  | .nil => .nil
  | .cons p e as => .seq (.seq p.names (e.names d)) (as.names d)

end

/-- The names in a method: those of its signature, then the body, where the parameter is bound. `derive/src/de.rs:62-70`. -/
def Fn.names (d : Expand.Struct) (f : Fn Mentions) : Tm :=
  match f.param with
  | some p => .seq (p.2.names d) (.seq (f.ret.names d) (.bind p.1 (f.body.names d)))
  | none => .seq (f.ret.names d) (f.body.names d)

/-- The names in an item, which has the generics of `d`; `trait`: the bound that is added (`derive/src/de.rs:50`, `derive/src/ser.rs:50`).  `derive/src/de.rs:56-112`. -/
def Item.names (d : Expand.Struct) (trait : Bytes) : Item Mentions → Tm
  | .strct _ fs => Expand.item d (.seq (.fields (fs.map Prod.fst)) (.all (fs.map fun f => f.2.names d)))
  | .impl tr ty b fns => Expand.item d (.seq (.use tr) (.seq (ty.names d) (.seq (if b then Expand.bounded d trait else .nil) (.all (fns.map fun f => f.names d)))))

/-- The names of the structs that are declared. `derive/src/de.rs:57,84`. -/
def Item.declared {α : Type} : Item α → List Bytes
  | .strct n _ => [n]
  | .impl .. => []

/-- The names in an expansion. `derive/src/de.rs:53-114`. -/
def Expansion.names (d : Expand.Struct) (trait : Bytes) (x : Expansion Mentions) : Tm :=
  .items (x.items.flatMap Item.declared) (.all (x.items.map fun i => i.names d trait))

/-- The struct, with the names its fields have in documents. `derive/src/de.rs:40-46`. -/
def namedFields (d : Expand.Struct) (wires : List Bytes) : List (Field Mentions) := (d.fields.zip wires).map fun p => ⟨p.1.1, p.2, p.1.2⟩

/-- An enum: it has no generics. `derive/src/de.rs:118-123`. -/
def enumStruct (d : Expand.Enum) : Expand.Struct := ⟨d.name, [], [], [], []⟩

/-- The enum, with the names its variants have in documents. `derive/src/de.rs:127-142`. -/
def namedVariants (d : Expand.Enum) (wires : List Bytes) : List Variant := (d.variants.zip wires).map fun p => ⟨p.1, p.2⟩

end Miniserde.Code
