import Verif.Spec.CodeTypes

/-!
# What generated code does

Meaning of the part of Rust that occurs in the expansions (`Model/Code.lean`), statement by statement: values, places in memory, early return by `?` and `return`, `match` with the first arm that
fits, struct literals, calls of the functions of the crate and of the standard library.  Names stand for what they are meant to (C87), and the code type-checks (C89); what is
stuck here (`none`) is rejected there.  `γ`: the values of the user's field types.  `usize` has no upper bound here.

A struct with one field that a pointer to that field's type is cast to is at the same place as the field (`#[repr(transparent)]`-like layout: `Props/Layout.lean`).
-/

namespace Miniserde.Code

open Expand (Src Ns Lib Meaning)

/-- A place: a memory cell, the fields to follow in it, and the helper struct that it is looked at as (after a cast). -/
structure Place where
  cell : Nat
  path : List Bytes
  view : Option Bytes
  deriving DecidableEq

/-- Values.  A reference that is coerced to one of a trait object stays the same value.  `begun p`: what the `begin` of the field's type returns for the place `p`; `ignore`: the visitor that ignores
everything. -/
inductive V (γ : Type) where
  | user (v : γ)
  | unit
  | num (n : Nat)
  | str (s : Bytes)
  | error
  | none
  | some (v : V γ)
  | ok (v : V γ)
  | err (v : V γ)
  | box (v : V γ)
  | borrowed (v : V γ)
  | pair (a b : V γ)
  | strct (ty : Meaning) (fs : List (Bytes × V γ))
  | variant (v : Bytes)
  | ref (p : Place)
  | ptr (p : Place)
  | begun (p : Place)
  | ignore
  | fragmentMap (v : V γ)
  | fragmentStr (v : V γ)

/-- Memory. -/
abbrev Mem (γ : Type) := Nat → Option (V γ)

section

variable {α γ : Type}

/-- The content of a cell is replaced. -/
def Mem.set (m : Mem γ) (c : Nat) (v : V γ) : Mem γ := fun d => if d = c then Option.some v else m d

/-- Follow the path into a value. -/
def readAt : List Bytes → V γ → Option (V γ)
  | [], v => .some v
  | f :: p, .strct _ fs =>
    match fs.find? fun g => g.1 == f with
    | .some g => readAt p g.2
    | .none => Option.none
  | _ :: _, _ => Option.none

/-- Replace what is at the end of the path. -/
def writeAt : List Bytes → V γ → V γ → Option (V γ)
  | [], _, w => .some w
  | f :: p, .strct t fs, w =>
    match fs.find? fun g => g.1 == f with
    | .some g => (writeAt p g.2 w).map fun v => .strct t (fs.map fun h => if h.1 = f then (h.1, v) else h)
    | .none => Option.none
  | _ :: _, _, _ => Option.none

/-- Read a place. -/
def Place.read (m : Mem γ) (p : Place) : Option (V γ) :=
  match p.view with
  | .none => (m p.cell).bind (readAt p.path)
  | .some _ => Option.none

/-- Write a place. -/
def Place.write (m : Mem γ) (p : Place) (v : V γ) : Option (Mem γ) :=
  match p.view with
  | .none => (m p.cell).bind fun c => (writeAt p.path c v).map fun c' => m.set p.cell c'
  | .some _ => Option.none

/-- The fields of a helper struct. -/
def declared (x : Expansion α) (n : Bytes) : Option (List (Bytes × TyX α)) :=
  x.items.findSome? fun i =>
    match i with
    | .strct m fs => if m = n then .some fs else Option.none
    | .impl .. => Option.none

/-- The place of a field. -/
def Place.field (x : Expansion α) (p : Place) (f : Bytes) : Option Place :=
  match p.view with
  | .none => .some { p with path := p.path ++ [f] }
  | .some n =>
    match declared x n with
    | .some [(g, _)] => if g = f then .some { p with view := Option.none } else Option.none
    | _ => Option.none

/-- An operand: a value or a place. -/
inductive Opnd (γ : Type) where
  | val (v : V γ)
  | loc (p : Place)

/-- The value of an operand. -/
def Opnd.toVal (m : Mem γ) : Opnd γ → Option (V γ)
  | .val v => .some v
  | .loc p => p.read m

/-- What evaluation leads to: an operand, a `return` or a panic. -/
inductive Out (β γ : Type) where
  | next (r : β) (m : Mem γ)
  | ret (v : V γ) (m : Mem γ)
  | panic

/-- Go on with the result. -/
def andThen {β δ : Type} (o : Option (Out β γ)) (k : β → Mem γ → Option (Out δ γ)) : Option (Out δ γ) :=
  match o with
  | .some (.next r m) => k r m
  | .some (.ret v m) => .some (.ret v m)
  | .some .panic => .some .panic
  | .none => Option.none

/-- Go on with the value of the result. -/
def thenVal {δ : Type} (o : Option (Out (Opnd γ) γ)) (k : V γ → Mem γ → Option (Out δ γ)) : Option (Out δ γ) :=
  andThen o fun r m =>
    match r.toVal m with
    | .some v => k v m
    | .none => Option.none

/-- The result is a value. -/
def done (v : V γ) (m : Mem γ) : Option (Out (Opnd γ) γ) := .some (.next (.val v) m)

/-- Variables. -/
structure Locals (γ : Type) where
  self : Option (V γ)
  vars : List (Bytes × V γ)

/-- What `self` is in `e.f` after dereferencing: the place of the struct. -/
def target (m : Mem γ) : Opnd γ → Option Place
  | .val (.ref p) => .some p
  | .val _ => Option.none
  | .loc p =>
    match p.read m with
    | .some (.ref q) => .some q
    | _ => .some p

/-- A path. -/
def pathV (ρ : Locals γ) (s : Src) : Option (V γ) :=
  match meant s with
  | .var y => (ρ.vars.find? fun p => p.1 == y).map Prod.snd
  | .lib .none => .some .none
  | .lib .error => .some .error
  | .variant v => .some (.variant v)
  | _ => Option.none

/-- `Option<_>` of Lean as one of Rust. -/
def V.ofOption : Option γ → V γ
  | .some v => .some (.user v)
  | .none => .none

/-- A call without arguments; `dflt`: what `default` of a type gives, `ty`: the type that is expected. -/
def call0V (dflt : α → Option γ) (ty : Option (TyX α)) (f : Src) : Option (V γ) :=
  match meant f with
  | .lib .deserializeDefault =>
    match ty with
    | .some (.app s (.user a)) => if meant s = .lib .option then .some (V.ofOption (dflt a)) else Option.none
    | _ => Option.none
  | .lib .ignore => .some .ignore
  | _ => Option.none

/-- A call with an argument. -/
def callV (f : Src) (v : V γ) : Option (V γ) :=
  match meant f with
  | .lib .some => .some (.some v)
  | .lib .ok => .some (.ok v)
  | .lib .err => .some (.err v)
  | .lib .boxNew => .some (.box v)
  | .lib .cowBorrowed => .some (.borrowed v)
  | .lib .fragmentMap => .some (.fragmentMap v)
  | .lib .fragmentStr => .some (.fragmentStr v)
  | .lib .deserializeBegin =>
    match v with
    | .ref p => .some (.begun p)
    | _ => Option.none
  | _ => Option.none

/-- `v as t`: from a reference to a pointer, from a pointer to one to a helper struct. -/
def castV (v : V γ) : TyX α → Option (V γ)
  | .ptr (.name s) | .ptr (.applied s) =>
    match v, meant s with
    | .ptr p, .helper n => .some (.ptr { p with view := .some n })
    | _, _ => Option.none
  | .ptr _ =>
    match v with
    | .ref p => .some (.ptr p)
    | _ => Option.none
  | _ => Option.none

/-- The value fits the pattern; a pattern for a variant also fits a reference. -/
def Pat.fits (m : Mem γ) (v : V γ) : Pat → Bool
  | .str s =>
    match v with
    | .str t => s == t
    | _ => false
  | .num n =>
    match v with
    | .num k => n == k
    | _ => false
  | .variant u =>
    match v with
    | .variant w => u == w
    | .ref p =>
      match p.read m with
      | .some (.variant w) => u == w
      | _ => false
    | _ => false
  | .wild => true

mutual

/-- Evaluation of an expression where a value of type `ty` is expected, if that is known. -/
def Ex.eval (x : Expansion α) (dflt : α → Option γ) : Ex α → Option (TyX α) → Locals γ → Mem γ → Option (Out (Opnd γ) γ)
  | .path s, _, ρ, m => (pathV ρ s).bind fun v => done v m
  | .self, _, ρ, m => ρ.self.bind fun v => done v m
  | .str s, _, _, m => done (.str s) m
  | .num n, _, _, m => done (.num n) m
  | .unit, _, _, m => done .unit m
  | .get e f, _, ρ, m => andThen (e.eval x dflt .none ρ m) fun r m =>
      ((target m r).bind fun p => p.field x f).bind fun p => .some (.next (.loc p) m)
  | .call0 f, ty, _, m => (call0V dflt ty f).bind fun v => done v m
  | .call f e, _, ρ, m => thenVal (e.eval x dflt .none ρ m) fun v m => (callV f v).bind fun w => done w m
  | .take e, _, ρ, m => andThen (e.eval x dflt .none ρ m) fun r m =>
      match r with
      | .loc p =>
        match p.read m, p.write m .none with
        | .some v, .some m' => done v m'
        | _, _ => Option.none
      | .val _ => Option.none
  | .okOr e d, _, ρ, m => thenVal (e.eval x dflt .none ρ m) fun v m => thenVal (d.eval x dflt .none ρ m) fun w m =>
      match v with
      | .some u => done (.ok u) m
      | .none => done (.err w) m
      | _ => Option.none
  | .quest e, _, ρ, m => thenVal (e.eval x dflt .none ρ m) fun v m =>
      match v with
      | .ok u => done u m
      | .err u => .some (.ret (.err u) m)
      | _ => Option.none
  | .ret e, _, ρ, m => thenVal (e.eval x dflt .none ρ m) fun v m => .some (.ret v m)
  | .ref _ e, _, ρ, m => andThen (e.eval x dflt .none ρ m) fun r m =>
      match r with
      | .loc p => done (.ref p) m
      | .val _ => Option.none
  | .deref e, _, ρ, m => thenVal (e.eval x dflt .none ρ m) fun v m =>
      match v with
      | .ref p => .some (.next (.loc p) m)
      | .ptr p => .some (.next (.loc p) m)
      | _ => Option.none
  | .cast e t, _, ρ, m => thenVal (e.eval x dflt .none ρ m) fun v m => (castV v t).bind fun w => done w m
  | .unsafeBlock e, ty, ρ, m => e.eval x dflt ty ρ m
  | .add a b, _, ρ, m => thenVal (a.eval x dflt .none ρ m) fun v m => thenVal (b.eval x dflt .none ρ m) fun w m =>
      match v, w with
      | .num i, .num j => done (.num (i + j)) m
      | _, _ => Option.none
  | .pair a b, _, ρ, m => thenVal (a.eval x dflt .none ρ m) fun v m => thenVal (b.eval x dflt .none ρ m) fun w m => done (.pair v w) m
  | .lit head fs, _, ρ, m =>
      match meant head with
      | .helper n => (declared x n).bind fun ds => andThen (fs.eval x dflt ds ρ m) fun vs m => done (.strct (.helper n) vs) m
      | .target => andThen (fs.eval x dflt [] ρ m) fun vs m => done (.strct .target vs) m
      | _ => Option.none
  | .assign l r, _, ρ, m => thenVal (r.eval x dflt .none ρ m) fun v m => andThen (l.eval x dflt .none ρ m) fun o m =>
      match o with
      | .loc p => (p.write m v).bind fun m => done .unit m
      | .val _ => Option.none
  | .letIn y e b, ty, ρ, m => thenVal (e.eval x dflt .none ρ m) fun v m => b.eval x dflt ty { ρ with vars := (y, v) :: ρ.vars } m
  | .seq a b, ty, ρ, m => andThen (a.eval x dflt .none ρ m) fun _ m => b.eval x dflt ty ρ m
  | .matches e as, ty, ρ, m => thenVal (e.eval x dflt .none ρ m) fun v m => as.eval x dflt ty v ρ m
  | .unreachable, _, _, _ => .some .panic

/-- The fields of a struct literal, in the order they are written; `ds`: their declarations. -/
def Flds.eval (x : Expansion α) (dflt : α → Option γ) : Flds α → List (Bytes × TyX α) → Locals γ → Mem γ → Option (Out (List (Bytes × V γ)) γ)
  | .nil, _, _, m => .some (.next [] m)
  | .cons f e fs, ds, ρ, m =>
    thenVal (e.eval x dflt ((ds.find? fun d => d.1 == f).map Prod.snd) ρ m) fun v m =>
      andThen (fs.eval x dflt ds ρ m) fun vs m => .some (.next ((f, v) :: vs) m)

/-- The first arm whose pattern fits. -/
def Arms.eval (x : Expansion α) (dflt : α → Option γ) : Arms α → Option (TyX α) → V γ → Locals γ → Mem γ → Option (Out (Opnd γ) γ)
  | .nil, _, _, _, _ => Option.none
  | .cons p e as, ty, v, ρ, m => if p.fits m v then e.eval x dflt ty ρ m else as.eval x dflt ty v ρ m

end

/-- The outcome of a call. -/
inductive Called (γ : Type) where
  | returns (v : V γ) (m : Mem γ)
  | panics

/-- A method, with `self` and the argument. -/
def Fn.call (x : Expansion α) (dflt : α → Option γ) (fn : Fn α) (self arg : Option (V γ)) (m : Mem γ) : Option (Called γ) :=
  let vars := match fn.param, arg with
    | .some p, .some v => [(p.1, v)]
    | _, _ => []
  match fn.body.eval x dflt .none ⟨self, vars⟩ m with
  | .some (.next r m') => (r.toVal m').map fun v => .returns v m'
  | .some (.ret v m') => .some (.returns v m')
  | .some .panic => .some .panics
  | .none => Option.none

/-- The method `name` of the impl of the trait `l`. -/
def method (x : Expansion α) (l : Lib) (name : Bytes) : Option (Fn α) :=
  x.items.findSome? fun i =>
    match i with
    | .impl tr _ _ fns => if meant tr = .lib l then fns.find? fun f => f.name == name else Option.none
    | .strct .. => Option.none

/-- Call the method `name` of the impl of `l`. -/
def invoke (x : Expansion α) (dflt : α → Option γ) (l : Lib) (name : Bytes) (self arg : Option (V γ)) (m : Mem γ) : Option (Called γ) :=
  (method x l name).bind fun fn => fn.call x dflt self arg m

/-! ## What is expected of it -/

/-- The field that a key is for: the first with that name in documents. -/
def fieldFor (fs : List (Field α)) (k : Bytes) : Option (Field α) := fs.find? fun f => f.wire == k

/-- What a caller does between two calls of `key`: nothing, or it stores something in the place it was given. -/
structure CStep (γ : Type) where
  key : Bytes
  store : Option (Option γ)

/-- The store. -/
def CStep.apply (s : CStep γ) (p : Place) (m : Mem γ) : Option (Mem γ) :=
  match s.store with
  | .some c => p.write m (V.ofOption c)
  | .none => .some m

/-- What is in the field `f` of the builder after the steps, if it was `v` before. -/
def finalOf (fs : List (Field α)) (f : Field α) : List (CStep γ) → Option γ → Option γ
  | [], v => v
  | s :: ss, v =>
    finalOf fs f ss (match fieldFor fs s.key with
      | .some g => if g.ident = f.ident then s.store.getD v else v
      | .none => v)

/-- A run of derived `Deserialize`, by a caller that has the place of the result in cell 0 and puts the builder into cell 1: `begin`, `map`, `key` for every step with a store into the place that was
handed out, `finish`.  Result: the places handed out (`none`: the ignoring visitor), what `finish` returned, the memory in the end.  The calls are those of `src/json/de.rs:74-75,132-133,168`. -/
def runKeys (x : Expansion α) (dflt : α → Option γ) : List (CStep γ) → Mem γ → Option (List (Option Place) × V γ × Mem γ)
  | [], m =>
    match invoke x dflt .deMap (str! "finish") (.some (.ref ⟨1, [], .none⟩)) .none m with
    | .some (.returns r m) => .some ([], r, m)
    | _ => Option.none
  | s :: ss, m =>
    match invoke x dflt .deMap (str! "key") (.some (.ref ⟨1, [], .none⟩)) (.some (.str s.key)) m with
    | .some (.returns (.ok (.begun p)) m) =>
      (s.apply p m).bind fun m => (runKeys x dflt ss m).map fun r => (.some p :: r.1, r.2)
    | .some (.returns (.ok .ignore) m) => (runKeys x dflt ss m).map fun r => (Option.none :: r.1, r.2)
    | _ => Option.none

/-- The run from the beginning; `out`: what is in the place of the result before. -/
def runDe (x : Expansion α) (dflt : α → Option γ) (out : V γ) (steps : List (CStep γ)) : Option (List (Option Place) × V γ × Mem γ) :=
  match invoke x dflt .deserialize (str! "begin") .none (.some (.ref ⟨0, [], .none⟩)) (Mem.set (fun _ => Option.none) 0 out) with
  | .some (.returns (.ref p) m) =>
    match invoke x dflt .visitor (str! "map") (.some (.ref p)) .none m with
    | .some (.returns (.ok (.box b)) m) => runKeys x dflt steps (m.set 1 b)
    | _ => Option.none
  | _ => Option.none

/-- The results of `n` calls of `next` of the builder in cell 1, and the memory afterwards.  The calls are those of `src/json/ser.rs:33,55`. -/
def runNexts (x : Expansion α) (dflt : α → Option γ) : Nat → Mem γ → Option (List (V γ) × Mem γ)
  | 0, m => .some ([], m)
  | n + 1, m =>
    match invoke x dflt .serMap (str! "next") (.some (.ref ⟨1, [], .none⟩)) .none m with
    | .some (.returns r m) => (runNexts x dflt n m).map fun q => (r :: q.1, q.2)
    | _ => Option.none

/-- A run of derived `Serialize` of a struct, with the value in cell 0: `begin`, then `n` times `next` of the map it returned, which is put in cell 1. -/
def runSer (x : Expansion α) (dflt : α → Option γ) (value : V γ) (n : Nat) : Option (List (V γ) × Mem γ) :=
  match invoke x dflt .serialize (str! "begin") (.some (.ref ⟨0, [], .none⟩)) .none (Mem.set (fun _ => Option.none) 0 value) with
  | .some (.returns (.fragmentMap (.box b)) m) => runNexts x dflt n (m.set 1 b)
  | _ => Option.none

/-- A run of derived `Deserialize` of an enum on a string: `begin`, `string`. Result: what `string` returned and the content of the place of the result. -/
def runString (x : Expansion α) (dflt : α → Option γ) (out : V γ) (s : Bytes) : Option (V γ × Option (V γ)) :=
  match invoke x dflt .deserialize (str! "begin") .none (.some (.ref ⟨0, [], .none⟩)) (Mem.set (fun _ => Option.none) 0 out) with
  | .some (.returns (.ref p) m) =>
    match invoke x dflt .visitor (str! "string") (.some (.ref p)) (.some (.str s)) m with
    | .some (.returns r m) => .some (r, m 0)
    | _ => Option.none
  | _ => Option.none

/-- What derived `Serialize` of an enum returns for a value. -/
def runBegin (x : Expansion α) (dflt : α → Option γ) (value : V γ) : Option (V γ) :=
  match invoke x dflt .serialize (str! "begin") (.some (.ref ⟨0, [], .none⟩)) .none (Mem.set (fun _ => Option.none) 0 value) with
  | .some (.returns r _) => .some r
  | _ => Option.none

/-- A value of the user's struct, with the values of the fields in the order of the declaration. -/
def structV (fs : List (Field α)) (vs : List γ) : V γ := .strct .target ((fs.map Field.ident).zip (vs.map V.user))

end

end Miniserde.Code
