import Verif.Model.Code
import Verif.Spec.Expand

/-!
# When generated code type-checks

Rust's typing rules for the part of the language that occurs in the expansions (`Model/Code.lean`): types and their well-formedness (`Sized`), places and mutability, moves out of borrowed
places, coercion to trait objects, casts, `match` (with exhaustiveness), `?`, struct literals, and impls against the methods of their trait.  Names stand for what they are meant to (`Src.meant`;
C87 says when they do).  Not covered: lifetimes and borrow checking (C07, C36, C61, C62 are about the references themselves), privacy, use of a variable after it was moved.
-/

namespace Miniserde.Code

open Expand (Src Ns Lib Meaning)

/-- What a path in the generated code is meant to stand for. -/
def meant : Src → Meaning
  | .lib ns p =>
    match Expand.libMeans.find? fun e => e.1 == (ns, p) with
    | some e => .lib e.2
    | none => .unresolved
  | .ok => .lib .ok
  | .ident => .target
  | .variant v => .variant v
  | .tparam n => .param n
  | .cparam n => .param n
  | .helper n => .helper n
  | .var n => .var n

/-- Types. `result t` is `Result<t, miniserde::Error>`, `cow t` is `Cow<t>`, `target` the type the macro is applied to, `user a` the type of a field of it. -/
inductive RT (α : Type) where
  | option (t : RT α)
  | result (t : RT α)
  | box (t : RT α)
  | cow (t : RT α)
  | ref (mu : Bool) (t : RT α)
  | ptr (t : RT α)
  | dyn (trait : Lib)
  | tuple (a b : RT α)
  | str | usize | unit | error | fragment
  | target
  | helper (n : Bytes)
  | user (a : α)

/-- The type the macro is applied to. -/
inductive Decl (α : Type) where
  | strct (fields : List (Bytes × α))
  | enm (variants : List Bytes)

/-- What is known about the types of the fields: which of them implement which trait and which are `Sized`, in an item with the additional bounds of the derive in question on the type parameters
(`true`) and in one without them (`false`). -/
structure World (α : Type) where
  decl : Decl α
  implements : Bool → Lib → α → Prop
  sized : Bool → α → Prop

/-- What a type in the source stands for, where `Self` is `self`. -/
def TyX.den {α : Type} (self : RT α) : TyX α → Option (RT α)
  | .name s | .applied s =>
    match meant s with
    | .lib .str => some .str
    | .lib .usize => some .usize
    | .lib .error => some .error
    | .lib .fragment => some .fragment
    | .target => some .target
    | .helper n => some (.helper n)
    | _ => none
  | .app s t =>
    match meant s with
    | .lib .option => (t.den self).map .option
    | .lib .result => (t.den self).map .result
    | .lib .box => (t.den self).map .box
    | .lib .cow => (t.den self).map .cow
    | _ => none
  | .self => some self
  | .user a => some (.user a)
  | .ref m t => (t.den self).map (.ref m)
  | .ptr t => (t.den self).map .ptr
  | .dyn s =>
    match meant s with
    | .lib l => some (.dyn l)
    | _ => none
  | .tuple a b =>
    match a.den self, b.den self with
    | some u, some v => some (.tuple u v)
    | _, _ => none
  | .unit => some .unit

section Rules

variable {α : Type} (W : World α) (x : Expansion α)

/-- The type is `Sized`. -/
def Sized (bounded : Bool) : RT α → Prop
  | .user a => W.sized bounded a
  | .target =>
    match W.decl with
    | .strct fs => ∀ f ∈ fs, W.sized bounded f.2
    | .enm _ => True
  | .str => False
  | .dyn _ => False
  | _ => True

/-- The type is well-formed: arguments of `Option`, `Result` and parts of tuples are `Sized`. -/
def Wf (bounded : Bool) : RT α → Prop
  | .option t => Wf bounded t ∧ Sized W bounded t
  | .result t => Wf bounded t ∧ Sized W bounded t
  | .tuple a b => (Wf bounded a ∧ Sized W bounded a) ∧ Wf bounded b ∧ Sized W bounded b
  | .box t => Wf bounded t
  | .cow t => Wf bounded t
  | .ref _ t => Wf bounded t
  | .ptr t => Wf bounded t
  | _ => True

/-- The type implements the trait: the types of the fields as the world says, the others by an impl of the expansion (whose where clause holds where it is used). -/
def Implements (bounded : Bool) (l : Lib) : RT α → Prop
  | .user a => W.implements bounded l a
  | t => ∃ tr ty b fns, Item.impl tr ty b fns ∈ x.items ∧ meant tr = .lib l ∧ ty.den t = some t ∧ (b = true → bounded = true)

/-- Coercions: a reference to or a box of a type that implements the trait becomes one of the trait object. -/
inductive Coerce (bounded : Bool) : RT α → RT α → Prop
  | refl (t : RT α) : Coerce bounded t t
  | ref (m : Bool) {t : RT α} {l : Lib} (h : Implements W x bounded l t) (hs : Sized W bounded t) : Coerce bounded (.ref m t) (.ref m (.dyn l))
  | box {t : RT α} {l : Lib} (h : Implements W x bounded l t) (hs : Sized W bounded t) : Coerce bounded (.box t) (.box (.dyn l))

/-- `as` between a reference and a raw pointer to the same type, and between raw pointers to `Sized` types. -/
inductive Casts (bounded : Bool) : RT α → RT α → Prop
  | ref (t : RT α) : Casts bounded (.ref true t) (.ptr t)
  | ptr {t u : RT α} (ht : Sized W bounded t) (hu : Sized W bounded u) : Casts bounded (.ptr t) (.ptr u)

/-- The type is `Copy`. -/
def Copy : RT α → Prop
  | .usize => True
  | .ref false _ => True
  | _ => False

/-- The fields of a struct. -/
def fieldsOf : RT α → Option (List (Bytes × RT α))
  | .target =>
    match W.decl with
    | .strct fs => some (fs.map fun f => (f.1, .user f.2))
    | .enm _ => none
  | .helper n => x.items.findSome? fun i =>
      match i with
      | .strct m fs => if m = n then fs.mapM fun f => (f.2.den (.helper n)).map fun t => (f.1, t) else none
      | .impl .. => none
  | _ => none

/-- Auto-dereferencing of `e.f`. -/
def strip : RT α → RT α
  | .ref _ t => strip t
  | t => t

/-- The type of the field `f`. -/
def HasField (s : RT α) (f : Bytes) (t : RT α) : Prop := ∃ fs, fieldsOf W x (strip s) = some fs ∧ (f, t) ∈ fs

/-- Where an expression stands: the type of the variable `self`, the type `Self`, variables (innermost first), the return type, the where clause of the item, and whether it is in an `unsafe` block. -/
structure Ctx (α : Type) where
  self : Option (RT α)
  selfTy : RT α
  vars : List (Bytes × RT α)
  ret : RT α
  bounded : Bool
  inUnsafe : Bool

/-- What can be said about an expression: `syn t`: it is a value of type `t`; `chk t`: it can stand where a `t` is expected; `place t`: it is a place of type `t`; `muta`: a place that can be assigned to and
mutably borrowed; `uniq`: a place such that what is behind a mutable reference in it can be so. -/
structure Judg (α : Type) where
  syn : RT α → Prop
  chk : RT α → Prop
  place : RT α → Prop
  muta : Prop
  uniq : Prop

/-- An expression that is not a place. -/
def value (b : Bool) (syn : RT α → Prop) : Judg α := ⟨syn, fun t => ∃ s, syn s ∧ Coerce W x b s t, fun _ => False, False, False⟩

/-- A place with its type; `copy`: what is in it cannot be moved out. -/
def placed (b : Bool) (copy : Bool) (place : RT α → Prop) (muta uniq : Prop) : Judg α :=
  { value W x b (fun t => place t ∧ (copy = true → Copy t)) with place := place, muta := muta, uniq := uniq }

/-- All cases are covered: there is a `_` arm, or all variants are listed.  A reference to an enum without variants counts as inhabited. -/
def Exhaustive (s : RT α) (pats : List Pat) : Prop :=
  .wild ∈ pats ∨
  match s, W.decl with
  | .target, .enm vs => ∀ v ∈ vs, .variant v ∈ pats
  | .ref _ .target, .enm vs => vs ≠ [] ∧ ∀ v ∈ vs, .variant v ∈ pats
  | _, _ => False

/-- The pattern can be matched against a value of the type. -/
def PatOk (s : RT α) : Pat → Prop
  | .str _ => s = .ref false .str
  | .num _ => s = .usize
  | .variant v => strip s = .target ∧ match W.decl with
    | .enm vs => v ∈ vs
    | .strct _ => False
  | .wild => True

/-- A path. -/
def pathJ (Γ : Ctx α) (s : Src) : Judg α :=
  match meant s with
  | .var y => placed W x Γ.bounded false (fun t => (Γ.vars.find? fun p => p.1 == y).map Prod.snd = some t) False True
  | .lib .none => value W x Γ.bounded fun t => ∃ u, t = .option u
  | .lib .error => value W x Γ.bounded fun t => t = .error
  | .variant v => value W x Γ.bounded fun t => t = .target ∧ match W.decl with
    | .enm vs => v ∈ vs
    | .strct _ => False
  | _ => value W x Γ.bounded fun _ => False

/-- Calls without arguments: `<dyn Visitor>::ignore()`, `Deserialize::default()` of the type that is needed. -/
def call0J (Γ : Ctx α) (f : Src) : Judg α :=
  match meant f with
  | .lib .deserializeDefault => value W x Γ.bounded fun t => ∃ u, t = .option u ∧ Implements W x Γ.bounded .deserialize u
  | .lib .ignore => value W x Γ.bounded fun t => t = .ref true (.dyn .visitor)
  | _ => value W x Γ.bounded fun _ => False

/-- Calls with an argument, where `j` is what can be said about the argument.  The argument is a coercion site. -/
def callJ (Γ : Ctx α) (f : Src) (j : Judg α) : Judg α :=
  match meant f with
  | .lib .some => { value W x Γ.bounded (fun t => ∃ u, t = .option u ∧ j.syn u) with chk := fun t => ∃ u, t = .option u ∧ j.chk u }
  | .lib .ok => { value W x Γ.bounded (fun t => ∃ u, t = .result u ∧ j.syn u) with chk := fun t => ∃ u, t = .result u ∧ j.chk u }
  | .lib .err => value W x Γ.bounded fun t => ∃ u, t = .result u ∧ j.chk .error
  | .lib .boxNew => value W x Γ.bounded fun t => ∃ u, t = .box u ∧ j.syn u ∧ Sized W Γ.bounded u
  | .lib .cowBorrowed => value W x Γ.bounded fun t => ∃ u, t = .cow u ∧ j.chk (.ref false u)
  | .lib .fragmentMap => value W x Γ.bounded fun t => t = .fragment ∧ j.chk (.box (.dyn .serMap))
  | .lib .fragmentStr => value W x Γ.bounded fun t => t = .fragment ∧ j.chk (.cow .str)
  | .lib .deserializeBegin => value W x Γ.bounded fun t => t = .ref true (.dyn .visitor) ∧
      ∃ u, j.syn (.ref true (.option u)) ∧ Implements W x Γ.bounded .deserialize u
  | _ => value W x Γ.bounded fun _ => False

mutual

/-- The typing rules. -/
def Ex.judge : Ex α → Ctx α → Judg α
  | .path s, Γ => pathJ W x Γ s
  | .self, Γ => placed W x Γ.bounded false (fun t => Γ.self = some t) False True
  | .str _, Γ => value W x Γ.bounded fun t => t = .ref false .str
  | .num _, Γ => value W x Γ.bounded fun t => t = .usize
  | .unit, Γ => value W x Γ.bounded fun t => t = .unit
  | .get e f, Γ =>
    let j := e.judge Γ
    let m := ∃ s, j.place s ∧ match s with
      | .ref m _ => m = true ∧ j.uniq
      | _ => j.muta
    placed W x Γ.bounded true (fun t => ∃ s, j.place s ∧ HasField W x s f t) m m
  | .call0 f, Γ => call0J W x Γ f
  | .call f e, Γ => callJ W x Γ f (e.judge Γ)
  | .take e, Γ => value W x Γ.bounded fun t => (∃ u, t = .option u) ∧ (e.judge Γ).place t ∧ (e.judge Γ).muta
  | .okOr e d, Γ => value W x Γ.bounded fun t => ∃ u, t = .result u ∧ (e.judge Γ).syn (.option u) ∧ (d.judge Γ).chk .error
  | .quest e, Γ => value W x Γ.bounded fun t => (e.judge Γ).syn (.result t) ∧ ∃ u, Γ.ret = .result u
  | .ret e, Γ => value W x Γ.bounded fun _ => (e.judge Γ).chk Γ.ret
  | .ref m e, Γ => value W x Γ.bounded fun t => ∃ u, t = .ref m u ∧ (e.judge Γ).place u ∧ (m = true → (e.judge Γ).muta)
  | .deref e, Γ =>
    let j := e.judge Γ
    let m := (∃ t, j.place (.ref true t) ∧ j.uniq) ∨ (∃ t, j.syn (.ptr t) ∧ Γ.inUnsafe = true)
    placed W x Γ.bounded true (fun t => (∃ m, j.place (.ref m t)) ∨ (j.syn (.ptr t) ∧ Γ.inUnsafe = true)) m m
  | .cast e ty, Γ => value W x Γ.bounded fun t => ty.den Γ.selfTy = some t ∧ ∃ s, (e.judge Γ).syn s ∧ Casts W Γ.bounded s t
  | .unsafeBlock e, Γ => { e.judge { Γ with inUnsafe := true } with place := fun _ => False, muta := False, uniq := False }
  | .add a b, Γ => value W x Γ.bounded fun t => t = .usize ∧ (a.judge Γ).syn .usize ∧ (b.judge Γ).syn .usize
  | .pair a b, Γ =>
    { value W x Γ.bounded (fun t => ∃ u v, t = .tuple u v ∧ (a.judge Γ).syn u ∧ (b.judge Γ).syn v) with
      chk := fun t => ∃ u v, t = .tuple u v ∧ (a.judge Γ).chk u ∧ (b.judge Γ).chk v }
  | .lit head fs, Γ => value W x Γ.bounded fun t => (TyX.applied head).den Γ.selfTy = some t ∧ ∃ ds, fieldsOf W x t = some ds ∧
      ((fs.judge Γ).map Prod.fst).Nodup ∧ (∀ f ∈ ds, f.1 ∈ (fs.judge Γ).map Prod.fst) ∧
      ∀ g ∈ fs.judge Γ, ∃ u, (g.1, u) ∈ ds ∧ g.2.chk u
  | .assign l r, Γ => value W x Γ.bounded fun t => t = .unit ∧ ∃ s, (l.judge Γ).place s ∧ (l.judge Γ).muta ∧ (r.judge Γ).chk s
  | .letIn y e b, Γ =>
    { value W x Γ.bounded (fun t => ∃ s, (e.judge Γ).syn s ∧ (b.judge { Γ with vars := (y, s) :: Γ.vars }).syn t) with
      chk := fun t => ∃ s, (e.judge Γ).syn s ∧ (b.judge { Γ with vars := (y, s) :: Γ.vars }).chk t }
  | .seq a b, Γ =>
    { value W x Γ.bounded (fun t => (∃ s, (a.judge Γ).syn s) ∧ (b.judge Γ).syn t) with
      chk := fun t => (∃ s, (a.judge Γ).syn s) ∧ (b.judge Γ).chk t }
  | .matches e as, Γ =>
    let ok := ∃ s, (e.judge Γ).syn s ∧ (∀ a ∈ as.judge Γ, PatOk W s a.1) ∧ Exhaustive W s ((as.judge Γ).map Prod.fst)
    { value W x Γ.bounded (fun t => ok ∧ ∀ a ∈ as.judge Γ, a.2.syn t) with
      chk := fun t => ok ∧ ∀ a ∈ as.judge Γ, a.2.chk t }
  | .unreachable, Γ => value W x Γ.bounded fun _ => True

/-- The fields of a literal. -/
def Flds.judge : Flds α → Ctx α → List (Bytes × Judg α)
  | .nil, _ => []
  | .cons f e fs, Γ => (f, e.judge Γ) :: fs.judge Γ

/-- The arms of a `match`. -/
def Arms.judge : Arms α → Ctx α → List (Pat × Judg α)
  | .nil, _ => []
  | .cons p e as, Γ => (p, e.judge Γ) :: as.judge Γ

end

/-- A method of a trait: is it required, and its signature for a type `Self`. -/
structure Sig (α : Type) where
  name : Bytes
  required : Bool
  recv : Recv
  param : Option (RT α)
  ret : RT α

/-- The traits: `src/de/mod.rs:202-229` (`Deserialize`), `:233-270` (`Visitor`; only the methods with parameters of the types above), `:283-286` (`Map`); `src/ser/mod.rs:117-119` (`Serialize`), `:131-133` (`Map`). -/
def sigs (self : RT α) : Lib → List (Sig α)
  | .deserialize =>
    [⟨str! "begin", true, .no, some (.ref true (.option self)), .ref true (.dyn .visitor)⟩, ⟨str! "default", false, .no, none, .option self⟩]
  | .visitor =>
    [⟨str! "null", false, .mut, none, .result .unit⟩, ⟨str! "string", false, .mut, some (.ref false .str), .result .unit⟩,
     ⟨str! "map", false, .mut, none, .result (.box (.dyn .deMap))⟩]
  | .deMap =>
    [⟨str! "key", true, .mut, some (.ref false .str), .result (.ref true (.dyn .visitor))⟩, ⟨str! "finish", true, .mut, none, .result .unit⟩]
  | .serialize => [⟨str! "begin", true, .ref, none, .fragment⟩]
  | .serMap => [⟨str! "next", true, .mut, none, .option (.tuple (.cow .str) (.ref false (.dyn .serialize)))⟩]
  | _ => []

/-- The type of `self`. -/
def Recv.ty (self : RT α) : Recv → Option (RT α)
  | .no => none
  | .ref => some (.ref false self)
  | .mut => some (.ref true self)

/-- The method has the signature of the trait's and its body has the type of the result. -/
def FnOk (bounded : Bool) (self : RT α) (l : Lib) (fn : Fn α) : Prop :=
  ∃ g ∈ sigs self l, g.name = fn.name ∧ g.recv = fn.recv ∧ (fn.param.map fun p => p.2.den self) = g.param.map some ∧ fn.ret.den self = some g.ret ∧
    (∀ t ∈ g.param.toList ++ [g.ret], Wf W bounded t) ∧
    (fn.body.judge W x ⟨fn.recv.ty self, self, (match fn.param, g.param with
      | some p, some t => [(p.1, t)]
      | _, _ => []), g.ret, bounded, false⟩).chk g.ret

/-- The item type-checks.  `Deserialize` is a subtrait of `Sized` (`src/de/mod.rs:202`). -/
def ItemOk : Item α → Prop
  | .strct n fs => (fs.map Prod.fst).Nodup ∧ ∀ f ∈ fs, ∃ t, f.2.den (.helper n) = some t ∧ Wf W false t ∧ Sized W false t
  | .impl tr ty b fns => ∃ l self, meant tr = .lib l ∧ ty.den .target = some self ∧ (l = .deserialize → Sized W b self) ∧
      (fns.map Fn.name).Nodup ∧ (∀ g ∈ sigs self l, g.required = true → g.name ∈ fns.map Fn.name) ∧ ∀ fn ∈ fns, FnOk W x b self l fn

/-- All items of the expansion type-check. -/
def ItemsOk : Prop := ∀ i ∈ x.items, ItemOk W x i

/-- The expansion compiles. -/
def Compiles : Prop := x.error = false ∧ ItemsOk W x

end Rules

end Miniserde.Code
