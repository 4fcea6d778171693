import Verif.Model.Lexer

/-!
# The non-recursive driver `from_str_impl`

Models `src/json/de.rs:46-184`.  The driver only talks to the data structure through the trait objects
`Visitor`, `Seq`, `Map`.  A *protocol* is an arbitrary implementation of these three traits: trait-object
references are opaque handles, everything the implementation can observe or mutate is its world `σ`, and each
method may return normally, return `Err` or panic.
-/

namespace Miniserde

/-- An implementation of the traits of `src/de/mod.rs:233-286`.
`V`, `Q`, `M` are the handles standing for `&mut dyn Visitor`, `Box<dyn Seq>`, `Box<dyn Map>`; `dropSeq`/`dropMap` are
the destructors run when a box is dropped.  Simplification: a destructor does not panic. -/
structure Proto (σ : Type) where
  V : Type
  Q : Type
  M : Type
  null : V → σ → Res Unit × σ
  boolean : V → Bool → σ → Res Unit × σ
  string : V → Bytes → σ → Res Unit × σ
  negative : V → Int → σ → Res Unit × σ
  nonnegative : V → Nat → σ → Res Unit × σ
  float : V → F64 → σ → Res Unit × σ
  seq : V → σ → Res Q × σ
  map : V → σ → Res M × σ
  element : Q → σ → Res V × σ
  seqFinish : Q → σ → Res Unit × σ
  key : M → Bytes → σ → Res V × σ
  mapFinish : M → σ → Res Unit × σ
  dropSeq : Q → σ → σ
  dropMap : M → σ → σ

/-- `src/json/de.rs:46-49` `enum Layer`. -/
inductive Layer {σ : Type} (P : Proto σ) where
  | seq (q : P.Q)
  | map (m : P.M)

section
variable {σ : Type} (P : Proto σ)

/-- A stack entry `(NonNull<dyn Visitor>, Layer)` of `src/json/de.rs:43`. -/
abbrev Frame := P.V × Layer P

variable {P}

/-- Dropping a layer drops the box in it (`src/ptr.rs:53-61`). -/
def Layer.drop : Layer P → σ → σ
  | .seq q, w => P.dropSeq q w
  | .map m, w => P.dropMap m w

/-- `src/json/de.rs:51-58` `impl Drop for Deserializer`: pop and drop until the stack is empty.
The stack is a list with its top first. -/
def dropStack : List (Frame P) → σ → σ
  | [], w => w
  | f :: st, w => dropStack st (f.2.drop w)

variable (P)

/-- `src/json/de.rs:72-105`: deliver one event to the current visitor; an opening bracket yields the new layer. -/
def visitEvent (v : P.V) (ev : Event) (w : σ) : Res (Option (Layer P)) × σ :=
  match ev with
  | .null => ((P.null v w).1.map fun _ => none, (P.null v w).2)
  | .bool b => ((P.boolean v b w).1.map fun _ => none, (P.boolean v b w).2)
  | .negative n => ((P.negative v n w).1.map fun _ => none, (P.negative v n w).2)
  | .nonnegative n => ((P.nonnegative v n w).1.map fun _ => none, (P.nonnegative v n w).2)
  | .float n => ((P.float v n w).1.map fun _ => none, (P.float v n w).2)
  | .str s => ((P.string v s w).1.map fun _ => none, (P.string v s w).2)
  | .seqStart => ((P.seq v w).1.map fun q => some (.seq q), (P.seq v w).2)
  | .mapStart => ((P.map v w).1.map fun m => some (.map m), (P.map v w).2)

/-- How the inner loop `src/json/de.rs:123-152` is left: `break` (a child follows) or `break 'outer`
(the root value is complete). -/
inductive LoopExit where
  | child (d : De) (visitor : P.V) (layer : Layer P) (stack : List (Frame P))
  | done (d : De)

/-- `src/json/de.rs:131-135`: `finish` the layer if the bracket matches it, else `Err`. -/
def finishLayer (close : UInt8) (layer : Layer P) (w : σ) : Res Unit × σ :=
  match layer with
  | .seq q => if close = b(']') then P.seqFinish q w else (.err, w)
  | .map m => if close = b('}') then P.mapFinish m w else (.err, w)

/-- `src/json/de.rs:123-152`: the inner loop.  Recursion on the stack, one frame popped per
iteration.  On an early return, Rust drops the local `layer` and then the deserializer with its
stack; assigning `layer = frame.1` (line 142) or leaving the block drops the finished layer. -/
def closeLoop (d : De) (acceptComma : Bool) (visitor : P.V) (layer : Layer P) (stack : List (Frame P))
    (w : σ) : Res (LoopExit P) × σ :=
  let (peek, d) := d.parseWhitespace
  let c := peek.getD 0
  if c = b(',') ∧ acceptComma = true then (.ok (.child d.bump visitor layer stack), w)
  else if c = b(']') ∨ c = b('}') then
    let d := d.bump
    match finishLayer P c layer w with
    | (.ok _, w) =>
      match stack with
      | [] => (.ok (.done d), layer.drop w)
      | frame :: stack => closeLoop d true frame.1 frame.2 stack (layer.drop w)
    | (r, w) => (r.fail, dropStack stack (layer.drop w))
  else if acceptComma then (.err, dropStack stack (layer.drop w))
  else (.ok (.child d visitor layer stack), w)

/-- `src/json/de.rs:154-177`: ask the layer for the place of the next child; for a map this reads
`"key"` and `:`.  Returns the new state, visitor and stack. -/
def openChild (d : De) (outer : P.V) (layer : Layer P) (stack : List (Frame P)) (w : σ) :
    Res (De × P.V × List (Frame P)) × σ :=
  match layer with
  | .seq q =>
    match P.element q w with
    | (.ok v, w) => (.ok (d, v, (outer, .seq q) :: stack), w)
    | (r, w) => (r.fail, dropStack stack (P.dropSeq q w))
  | .map m =>
    let (peek, d) := d.parseWhitespace
    if peek = some b('"') then
      match d.bump.parseStr with
      | .ok (k, d) =>
        match P.key m k w with
        | (.ok v, w) =>
          let (peek, d) := d.parseWhitespace
          if peek = some b(':') then (.ok (d.bump, v, (outer, .map m) :: stack), w)
          else (.err, dropStack stack (P.dropMap m w))
        | (r, w) => (r.fail, dropStack stack (P.dropMap m w))
      | r => (r.fail, dropStack stack (P.dropMap m w))
    else (.err, dropStack stack (P.dropMap m w))

/-- `src/json/de.rs:180-183`: only whitespace may follow the root value. -/
def trailing (d : De) : Res Unit :=
  match d.parseWhitespace.1 with
  | some _ => .err
  | none => .ok ()

/-- `src/json/de.rs:70-183`: the `'outer` loop and the check after it, for at most `fuel` iterations;
`none` means the loop is still running after `fuel` iterations. -/
def outerLoop : Nat → De → P.V → List (Frame P) → σ → Option (Res Unit × σ)
  | 0, _, _, _, _ => none
  | fuel + 1, d, visitor, stack, w =>
    match d.event with
    | .ok (ev, d) =>
      match visitEvent P visitor ev w with
      | (.ok layer?, w) =>
        -- `src/json/de.rs:107-121`
        let next : Res (LoopExit P) × σ :=
          match layer? with
          | some layer => closeLoop P d false visitor layer stack w
          | none =>
            match stack with
            | frame :: stack => closeLoop P d true frame.1 frame.2 stack w
            | [] => (.ok (.done d), w)
        match next with
        | (.ok (.child d visitor layer stack), w) =>
          match openChild P d visitor layer stack w with
          | (.ok (d, visitor, stack), w) => outerLoop fuel d visitor stack w
          | (r, w) => some (r.fail, w)
        | (.ok (.done d), w) => some (trailing d, w)
        | (r, w) => some (r.fail, w)
      | (r, w) => some (r.fail, dropStack stack w)
    | r => some (r.fail, dropStack stack w)

/-- `src/json/de.rs:60-184` `fn from_str_impl`, with an iteration budget. -/
def fromStrImplFuel (fuel : Nat) (j : Bytes) (visitor : P.V) (w : σ) : Option (Res Unit × σ) :=
  outerLoop P fuel { input := j, pos := 0, buffer := [] } visitor [] w

/-- `src/json/de.rs:60-184` `fn from_str_impl`.  The budget `len + 1` always suffices (property C06). -/
def fromStrImpl (j : Bytes) (visitor : P.V) (w : σ) : Option (Res Unit × σ) :=
  fromStrImplFuel P (j.length + 1) j visitor w

end

end Miniserde
