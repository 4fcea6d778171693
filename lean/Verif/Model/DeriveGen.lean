import Verif.Model.Derive
import Verif.Model.Visitors
import Verif.Model.SerLib

/-!
# Running the code generated by the derive macros

An interpreter of the generated code: the methods of `__Visitor`, `__State`, `__Map` and of the impls for enums, with struct fields accessed
by name as in Rust.  The rest of the model (`Core.strct`, `Stream.strct`, `scalarLeaf`, `beginVal`) accesses fields by position; `Props/DeriveGen.lean` shows that
both agree.
-/

namespace Miniserde

/-- A struct whose fields have content of type `α`: `__State` without `__out`, local variables, or the user's struct. `derive/src/de.rs:84-89` (`__State`), `:102-110`. -/
abbrev Rec (α : Type) := List (RIdent × α)

/-- `self.f`; `none`: there is no such field (a compile error in Rust). `derive/src/de.rs:95,103`. -/
def Rec.get {α : Type} (r : Rec α) (f : RIdent) : Option α := (r.find? fun p => p.1 == f).map Prod.snd

/-- `self.f = x`. `derive/src/de.rs:95,103`. -/
def Rec.set {α : Type} (r : Rec α) (f : RIdent) (x : α) : Rec α := r.map fun p => if p.1 == f then (p.1, x) else p

/-- The generated `Visitor::map`: every field of `__State` starts with the default of its type (`derive/src/de.rs:74-81`). -/
def genState (state : List (RIdent × Ty)) : Rec (Option Val) := state.map fun p => (p.1, p.2.default)

/-- The generated `Map::key` (`derive/src/de.rs:92-99`): the field of `__State` whose place is handed out, with its type, or `none` for
`<dyn Visitor>::ignore()`; the outer `none`: there is no such field. -/
def genKey (state : List (RIdent × Ty)) (keyArms : List (Bytes × RIdent)) (k : Bytes) : Option (Option (RIdent × Ty)) :=
  match strMatch keyArms k with
  | some f =>
    match Rec.get state f with
    | some t => some (some (f, t))
    | none => none
  | none => some none

/-- `let f = self.f.take().ok_or(Error)?;` for each field in `takes` (`derive/src/de.rs:102-104`): `__State` afterwards and the local
variables, `none` in the second component when `Err` is returned; the outer `none`: there is no such field. -/
def genTakes : List RIdent → Rec (Option Val) → Rec Val → Option (Rec (Option Val) × Option (Rec Val))
  | [], s, locals => some (s, some locals)
  | f :: fs, s, locals =>
    match s.get f with
    | some (some v) => genTakes fs (s.set f none) ((f, v) :: locals)
    | some none => some (s, none)
    | none => none

/-- The struct literal `Name { f, g, ... }` (`derive/src/de.rs:105-109`): each field is given the local variable of its name. -/
def genLiteral : List RIdent → Rec Val → Option (Rec Val)
  | [], _ => some []
  | f :: fs, locals =>
    match Rec.get locals f, genLiteral fs locals with
    | some v, some r => some ((f, v) :: r)
    | _, _ => none

/-- The generated `Map::finish` (`derive/src/de.rs:101-111`). -/
def genFinish (takes ctor : List RIdent) (s : Rec (Option Val)) : Option (Res (Rec Val) × Rec (Option Val)) :=
  match genTakes takes s [] with
  | some (s', some locals) =>
    match genLiteral ctor locals with
    | some r => some (.ok r, s')
    | none => none
  | some (s', none) => some (.err, s')
  | none => none

/-- The generated `string` of an enum (`derive/src/de.rs:165-172`): the variant written, or `none` for `Err`. -/
def genString (arms : List (Bytes × RIdent)) (s : Bytes) : Option RIdent := strMatch arms s

/-- The generated `Map::next` (`derive/src/ser.rs:71-83`) of `__Map { data, state }`: the result and the new state; the outer `none`: there is no
such field. -/
def genNext (nextArms : List (Nat × Bytes × RIdent)) (data : Rec (Ty × Val)) (state : Nat) : Option (Option (Bytes × (Ty × Val))) × Nat :=
  match stateMatch nextArms state with
  | some (name, f) =>
    match data.get f with
    | some x => (some (some (name, x)), state + 1)
    | none => (none, state + 1)
  | none => (some none, state + 1)

/-- The generated `begin` of an enum (`derive/src/ser.rs:120-128`); `none`: no arm (a compile error in Rust). -/
def genBegin (arms : List (RIdent × Bytes)) (v : RIdent) : Option Bytes := variantMatch arms v

/-! ## Whole runs -/

/-- What happens to a builder between two calls of `key`: the place that was handed out is left alone or overwritten (by the visitors of the
field's type, any number of times; only the last content matters).  For `ignore()` nothing is stored. Between the calls of `src/json/de.rs:168`. -/
structure GenStep where
  key : Bytes
  write : Option (Option Val)

/-- The effect of a step on the field `f` that was handed out. Through the place of `derive/src/de.rs:95`. -/
def Rec.write (s : Rec (Option Val)) (f : RIdent) : Option (Option Val) → Rec (Option Val)
  | some c => s.set f c
  | none => s

/-- The same, for the builder of the model. Through the place of `derive/src/de.rs:95`. -/
def Core.write (c : Core) (j : Nat) : Option (Option Val) → Core
  | some y => c.put j y
  | none => c

/-- A run of the generated builder: `key` for every step, then `finish`.  Result: for every key the type of the place handed out (`none`:
ignored), and the outcome of `finish`. `derive/src/de.rs:91-112`, called from `src/json/de.rs:132-133,168`. -/
def genRun (state : List (RIdent × Ty)) (keyArms : List (Bytes × RIdent)) (takes ctor : List RIdent) :
    List GenStep → Rec (Option Val) → Option (List (Option Ty) × Res (Rec Val))
  | [], s => (genFinish takes ctor s).map fun r => ([], r.1)
  | x :: xs, s =>
    match genKey state keyArms x.key with
    | none => none
    | some none => (genRun state keyArms takes ctor xs s).map fun r => (none :: r.1, r.2)
    | some (some (f, t)) =>
      (genRun state keyArms takes ctor xs (s.write f x.write)).map fun r => (some t :: r.1, r.2)

/-- The same run of the builder that the rest of the model uses. The same calls, `src/json/de.rs:132-133,168`. -/
def coreRun (E : Env) : List GenStep → Core → Option (List (Option Ty) × Res Val)
  | [], c => (c.finish E).map fun r => ([], r.1)
  | x :: xs, c =>
    match c.child E (some x.key) with
    | some (.ok none, c) => (coreRun E xs c).map fun r => (none :: r.1, r.2)
    | some (.ok (some (j, t)), c) =>
      (coreRun E xs (c.write j x.write)).map fun r => (some t :: r.1, r.2)
    | some (_, _) => none
    | none => none

/-- The results of `n` calls of the generated `next`. `derive/src/ser.rs:70-84`. -/
def genNexts (nextArms : List (Nat × Bytes × RIdent)) (data : Rec (Ty × Val)) : Nat → Nat → List (Option (Option (Bytes × (Ty × Val))))
  | 0, _ => []
  | n + 1, state => (genNext nextArms data state).1 :: genNexts nextArms data n (genNext nextArms data state).2

/-- The results of `n` calls of `next` of the stream in cell `q`. `derive/src/ser.rs:70-84`. -/
def libNexts (E : Env) (q : Nat) : Nat → SHeap → List (Option (Option (Bytes × (Ty × Val))))
  | 0, _ => []
  | n + 1, h => (mapNextLib E q h).1 :: libNexts E q n (mapNextLib E q h).2

end Miniserde
