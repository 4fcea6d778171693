import Verif.Model.Driver

/-!
# The driver `from_str_impl` when destructors panic

`Model/Driver.lean` assumes that the destructors of `Box<dyn Seq>` and `Box<dyn Map>` do not panic.  User code can implement `Drop` for its builders, and destructors can
panic.  This is the same driver without that assumption.

Rust's rules: a panic unwinds, dropping the live locals in reverse order of their declaration; a panic in a destructor during unwinding aborts the process; when
`Drop::drop` of a struct panics, the fields of the struct are still dropped; when the destructor called by an assignment `x = e` panics, `e` is stored in `x` and
then dropped with it; a `Vec` drops its elements first to last.
-/

namespace Miniserde

/-- How a run ends. `src/json/de.rs:60-184`. -/
inductive UOut where
  | ok
  | err
  /-- A panic leaves `from_str_impl`; the cleanup was done by unwinding. -/
  | panic
  /-- A panic leaves `from_str_impl`: it was about to return `Err` when the destructor of a layer on the stack panicked, with `left` layers still on the stack.
  They were dropped, or (`aborted`) a second destructor panicked and the process is aborted. -/
  | cleanup (left : Nat) (aborted : Bool)
  /-- The process is aborted: a destructor panicked during unwinding. -/
  | abort
  deriving DecidableEq, Repr

/-- The process was aborted. Of `src/json/de.rs:60-184`. -/
def UOut.aborted : UOut → Bool
  | .abort => true
  | .cleanup _ a => a
  | _ => false

/-- The cleanup panicked with two or more layers left on the stack. Of `src/json/de.rs:51-58`. -/
def UOut.disordered : UOut → Bool
  | .cleanup k _ => 2 ≤ k
  | _ => false

section
variable {σ : Type} (P : Proto σ) (bomb : Layer P → σ → Bool)

/-- `src/json/de.rs:51-58` `Deserializer::drop` during unwinding: a panic in a destructor (`bomb`) aborts. -/
def unwindStack : List (Frame P) → σ → UOut × σ
  | [], w => (.panic, w)
  | f :: st, w => if bomb f.2 w then (.abort, f.2.drop w) else unwindStack st (f.2.drop w)

/-- The drop glue of the field `stack: Vec<..>` (`src/json/de.rs:43`), first element first, during unwinding.  `true`: aborted. -/
def dropVec : List (Frame P) → σ → Bool × σ
  | [], w => (false, w)
  | f :: st, w => if bomb f.2 w then (true, f.2.drop w) else dropVec st (f.2.drop w)

/-- `src/json/de.rs:51-58` `Deserializer::drop` when `Err` is returned: layers are popped and dropped; if a destructor panics, `drop` is left and the rest of the
vector is dropped by the drop glue of the field.  The stack has its top first, the vector its bottom. -/
def cleanStack : List (Frame P) → σ → UOut × σ
  | [], w => (.err, w)
  | f :: st, w =>
    if bomb f.2 w then
      (.cleanup st.length (dropVec P bomb st.reverse (f.2.drop w)).1, (dropVec P bomb st.reverse (f.2.drop w)).2)
    else cleanStack st (f.2.drop w)

/-- `return Err` with the local `layer` alive: it is dropped, then `de`. `src/json/de.rs:132-134,146,157-174`, then `:51-58`. -/
def leaveErr (layer : Layer P) (st : List (Frame P)) (w : σ) : UOut × σ :=
  if bomb layer w then unwindStack P bomb st (layer.drop w) else cleanStack P bomb st (layer.drop w)

/-- A panic with the local `layer` alive. At the calls of `src/json/de.rs:132-133,157,168`, then `:51-58`. -/
def leavePanic (layer : Layer P) (st : List (Frame P)) (w : σ) : UOut × σ :=
  if bomb layer w then (.abort, layer.drop w) else unwindStack P bomb st (layer.drop w)

/-- A call failed, with the local `layer` alive. `src/json/de.rs:132-133,157,168`. -/
def leaveLayer {α : Type} (r : Res α) (layer : Layer P) (st : List (Frame P)) (w : σ) : UOut × σ :=
  match r with
  | .panic => leavePanic P bomb layer st w
  | _ => leaveErr P bomb layer st w

/-- A call failed, with no layer in a local variable. `src/json/de.rs:72-104`. -/
def leaveStack {α : Type} (r : Res α) (st : List (Frame P)) (w : σ) : UOut × σ :=
  match r with
  | .panic => unwindStack P bomb st w
  | _ => cleanStack P bomb st w

/-- `src/json/de.rs:123-152`, as `closeLoop`.  At `layer = frame.1` (line 142) a panic leaves `frame.1` in `layer`. -/
def closeLoopU (d : De) (acceptComma : Bool) (visitor : P.V) (layer : Layer P) (stack : List (Frame P)) (w : σ) : Except (UOut × σ) (LoopExit P × σ) :=
  let (peek, d) := d.parseWhitespace
  let c := peek.getD 0
  if c = b(',') ∧ acceptComma = true then .ok (.child d.bump visitor layer stack, w)
  else if c = b(']') ∨ c = b('}') then
    let d := d.bump
    match finishLayer P c layer w with
    | (.ok _, w) =>
      match stack with
      | [] => if bomb layer w then .error (.panic, layer.drop w) else .ok (.done d, layer.drop w)
      | frame :: stack =>
        if bomb layer w then .error (leavePanic P bomb frame.2 stack (layer.drop w)) else closeLoopU d true frame.1 frame.2 stack (layer.drop w)
    | (r, w) => .error (leaveLayer P bomb r layer stack w)
  else if acceptComma then .error (leaveErr P bomb layer stack w)
  else .ok (.child d visitor layer stack, w)

/-- `src/json/de.rs:154-177`, as `openChild`. -/
def openChildU (d : De) (outer : P.V) (layer : Layer P) (stack : List (Frame P)) (w : σ) : Except (UOut × σ) ((De × P.V × List (Frame P)) × σ) :=
  match layer with
  | .seq q =>
    match P.element q w with
    | (.ok v, w) => .ok ((d, v, (outer, .seq q) :: stack), w)
    | (r, w) => .error (leaveLayer P bomb r (.seq q) stack w)
  | .map m =>
    let (peek, d) := d.parseWhitespace
    if peek = some b('"') then
      match d.bump.parseStr with
      | .ok (k, d) =>
        match P.key m k w with
        | (.ok v, w) =>
          let (peek, d) := d.parseWhitespace
          if peek = some b(':') then .ok ((d.bump, v, (outer, .map m) :: stack), w)
          else .error (leaveErr P bomb (.map m) stack w)
        | (r, w) => .error (leaveLayer P bomb r (.map m) stack w)
      | r => .error (leaveLayer P bomb r (.map m) stack w)
    else .error (leaveErr P bomb (.map m) stack w)

/-- `src/json/de.rs:107-121`: the layer to go on with. -/
def nextLayerU (d : De) (visitor : P.V) (layer? : Option (Layer P)) (stack : List (Frame P)) (w : σ) : Except (UOut × σ) (LoopExit P × σ) :=
  match layer? with
  | some layer => closeLoopU P bomb d false visitor layer stack w
  | none =>
    match stack with
    | frame :: stack => closeLoopU P bomb d true frame.1 frame.2 stack w
    | [] => .ok (.done d, w)

/-- `src/json/de.rs:70-183`, as `outerLoop`. -/
def outerLoopU : Nat → De → P.V → List (Frame P) → σ → Option (UOut × σ)
  | 0, _, _, _, _ => none
  | fuel + 1, d, visitor, stack, w =>
    match d.event with
    | .ok (ev, d) =>
      match visitEvent P visitor ev w with
      | (.ok layer?, w) =>
        match nextLayerU P bomb d visitor layer? stack w with
        | .ok (.child d visitor layer stack, w) =>
          match openChildU P bomb d visitor layer stack w with
          | .ok ((d, visitor, stack), w) => outerLoopU fuel d visitor stack w
          | .error e => some e
        | .ok (.done d, w) => some (match trailing d with | .ok _ => .ok | _ => .err, w)
        | .error e => some e
      | (r, w) => some (leaveStack P bomb r stack w)
    | r => some (leaveStack P bomb r stack w)

/-- `src/json/de.rs:60-184` `fn from_str_impl`. -/
def fromStrU (j : Bytes) (visitor : P.V) (w : σ) : Option (UOut × σ) :=
  outerLoopU P bomb (j.length + 1) { input := j, pos := 0, buffer := [] } visitor [] w

end

end Miniserde
