import Verif.Model.Visitors

/-!
# `from_str` on several threads

`from_str` (`src/json/de.rs:30-184`) and the library's visitors written as *programs* of single memory operations, and a
pool of threads that execute such programs on one shared heap, one memory operation at a time, in any order.  What
the threads share is the allocator and the address space; `json::from_str` has no other shared state (the
`static mut IGNORE` of `src/ignore.rs:7-15` is zero-sized).  Simplifications: a single memory operation (`Prog.load`,
`Prog.store`, `Prog.alloc`, `Prog.free`) is atomic and sequentially consistent, and operates on a whole object; addresses are not
reused.
-/

namespace Miniserde.Threads

/-- A program of single memory operations on the heap of `src/de/impls.rs:212-230,370,423,477,557,626`: `ret` returns, `load` reads
an object, `store` overwrites a live object, `alloc` is `Box::new` (or entering the scope of the local `out`), `free` deallocates,
`fault` is an operation that is undefined behaviour. -/
inductive Prog (α : Type) where
  | ret (x : α)
  | load (a : Nat) (k : Option Obj → Prog α)
  | store (a : Nat) (o : Obj) (k : Prog α)
  | alloc (o : Obj) (k : Nat → Prog α)
  | free (a : Nat) (k : Prog α)
  | fault (k : Prog α)

/-- Sequencing: the statements of a Rust block, one after the other. Used throughout `src/json/de.rs:60-184`. -/
def Prog.bind {α β : Type} : Prog α → (α → Prog β) → Prog β
  | .ret x, f => f x
  | .load a k, f => .load a fun o => (k o).bind f
  | .store a o k, f => .store a o (k.bind f)
  | .alloc o k, f => .alloc o fun a => (k a).bind f
  | .free a k, f => .free a (k.bind f)
  | .fault k, f => .fault (k.bind f)

/-- Execute one memory operation on a heap: the rest of the program, and the heap afterwards.  Reading or overwriting a dead
object is a fault, like freeing one (`src/ptr.rs:12-61` is where the code relies on this not happening). -/
def Prog.step {α : Type} : Prog α → Heap → Prog α × Heap
  | .ret x, h => (.ret x, h)
  | .load a k, h =>
    match h.mem a with
    | some o => (k (some o), h)
    | none => (k none, h.bad)
  | .store a o k, h =>
    match h.mem a with
    | some _ => (k, h.set a o)
    | none => (k, h.bad)
  | .alloc o k, h => (k (h.alloc o).1, (h.alloc o).2)
  | .free a k, h => (k, h.free a)
  | .fault k, h => (k, h.bad)

/-! ## The visitors -/

/-- Read through a place `&mut Option<T>`. `src/place.rs:29-35`. -/
def readP (p : Ptr) : Prog (Option (Option Val)) :=
  .load p.addr fun o => .ret ((o.bind fun o => o.get p.field).bind (readD p.depth))

/-- Write through a place `&mut Option<T>`. `src/place.rs:29-35`. -/
def writeP (p : Ptr) (c : Option Val) : Prog Unit :=
  .load p.addr fun o =>
    match o.bind (fun o => (o.get p.field).bind fun c0 => (writeD p.depth c c0).map fun c' => o.put p.field c') with
    | some o' => .store p.addr o' (.ret ())
    | none => .fault (.ret ())

variable (E : Env)

/-- A leaf call, as in `leafAt`. `src/de/impls.rs:18-210,311-339`, `src/ignore.rs:20-43`. -/
def leafP (v : VH) (ev : Event) : Prog (Res Unit) :=
  match v with
  | .ignore => .ret (.ok ())
  | .place t p =>
    (readP p).bind fun c =>
      match c with
      | some c => (writeP p (leafOn E t ev c).2).bind fun _ => .ret (leafOn E t ev c).1
      | none => .fault (.ret .panic)

/-- `Visitor::seq` / `Visitor::map` of `Place<T>`, as in `openPlace`. `src/de/impls.rs:212-230,341-349,369-374,422-428`. -/
def openPlaceP : Ty → Ptr → Bool → Prog (Res BH)
  | .opt t, p, isMap => (writeP p (some .optNone)).bind fun _ => openPlaceP t p.deref isMap
  | .box t, p, isMap =>
    .alloc (.slot none) fun s =>
      (openPlaceP t ⟨s, 0, 0⟩ isMap).bind fun r =>
        match r with
        | .ok q => .alloc (.boxB p s q) fun b => .ret (.ok (.at b))
        | .err => .free s (.ret .err)
        | .panic => .free s (.ret .panic)
  | t, p, isMap =>
    match t.core E isMap with
    | some core => .alloc (.builder p core) fun a => .ret (.ok (.at a))
    | none => .ret .err

/-- `Visitor::seq` / `Visitor::map`. `src/de/impls.rs:212-230`, `src/ignore.rs:45-51`. -/
def openP (v : VH) (isMap : Bool) : Prog (Res BH) :=
  match v with
  | .ignore => .ret (.ok .ignore)
  | .place t p => openPlaceP E t p isMap

/-- `Seq::element` / `Map::key` of the builder at `a`, as in `childAt`. `src/de/impls.rs:250-252,279-281,387-395,449-452,507-510,591-598,658-665`. -/
def childAtP (a : Nat) (k? : Option Bytes) : Prog (Res VH) :=
  .load a fun o =>
    match o with
    | some (.builder out core) =>
      match core.child E k? with
      | some (.ok (some (f, t)), core') => .store a (.builder out core') (.ret (.ok (.place t ⟨a, f, 0⟩)))
      | some (.ok none, core') => .store a (.builder out core') (.ret (.ok .ignore))
      | some (.err, core') => .store a (.builder out core') (.ret .err)
      | some (.panic, core') => .store a (.builder out core') (.ret .panic)
      | none => .fault (.ret .panic)
    | some (.boxB _ _ .ignore) => .ret (.ok .ignore)
    | some (.boxB _ _ (.at a')) => if a' < a then childAtP a' k? else .fault (.ret .panic)
    | _ => .fault (.ret .panic)
termination_by a

/-- `Seq::element` / `Map::key`. `src/ignore.rs:55-57,65-67`, `src/de/impls.rs:250-252,279-281`. -/
def childP (q : BH) (k? : Option Bytes) : Prog (Res VH) :=
  match q with
  | .ignore => .ret (.ok .ignore)
  | .at a => childAtP E a k?

/-- Drop a `Box<dyn Seq>`/`Box<dyn Map>`, as in `dropAt`. `src/de/impls.rs:240-244`, `src/ptr.rs:53-61`. -/
def dropAtP (a : Nat) : Prog Unit :=
  .load a fun o =>
    match o with
    | some (.builder _ _) => .free a (.ret ())
    | some (.boxB _ value .ignore) => .free value (.free a (.ret ()))
    | some (.boxB _ value (.at a')) =>
      if a' < a then (dropAtP a').bind fun _ => .free value (.free a (.ret ())) else .fault (.ret ())
    | _ => .fault (.ret ())
termination_by a

/-- Drop a `Box<dyn Seq>`/`Box<dyn Map>`. `src/ptr.rs:53-61`. -/
def dropP (q : BH) : Prog Unit :=
  match q with
  | .ignore => .ret ()
  | .at a => dropAtP a

/-- The end of `BoxSeq::finish`, as in `boxFinish`. `src/de/impls.rs:254-259,283-288`. -/
def boxFinishP (a : Nat) (out : Ptr) (value : Nat) : Prog (Res Unit) :=
  .load a fun o =>
    match o with
    | none => .fault (.ret .panic)
    | some _ =>
      .store a (.boxB out value .ignore)
        ((readP ⟨value, 0, 0⟩).bind fun c =>
          match c with
          | some (some v) =>
            (writeP ⟨value, 0, 0⟩ none).bind fun _ => (writeP out (some (.box v))).bind fun _ => .ret (.ok ())
          | some none => .ret .panic
          | none => .fault (.ret .panic))

/-- `Seq::finish` / `Map::finish` of the builder at `a`, as in `finishAt`. `src/de/impls.rs:254-258,283-287,397-404,454-458,512-525,600-605,667-671`,
`derive/src/de.rs:101-112`. -/
def finishAtP (a : Nat) : Prog (Res Unit) :=
  .load a fun o =>
    match o with
    | some (.builder out core) =>
      match core.finish E with
      | some (.ok v, core') => .store a (.builder out core') ((writeP out (some v)).bind fun _ => .ret (.ok ()))
      | some (.err, core') => .store a (.builder out core') (.ret .err)
      | some (.panic, core') => .store a (.builder out core') (.ret .panic)
      | none => .fault (.ret .panic)
    | some (.boxB out value .ignore) => boxFinishP a out value
    | some (.boxB out value (.at a')) =>
      if a' < a then
        (finishAtP a').bind fun r =>
          match r with
          | .ok _ => (dropAtP a').bind fun _ => boxFinishP a out value
          | .err => .ret .err
          | .panic => .ret .panic
      else .fault (.ret .panic)
    | _ => .fault (.ret .panic)
termination_by a

/-- `Seq::finish` / `Map::finish`. `src/ignore.rs:59-61,69-71`, `src/de/impls.rs:254-258`. -/
def finishP (q : BH) : Prog (Res Unit) :=
  match q with
  | .ignore => .ret (.ok ())
  | .at a => finishAtP E a

/-! ## The driver -/

/-- `src/json/de.rs:46-49` `enum Layer`. -/
inductive LayerP where
  | seq (q : BH)
  | map (q : BH)

/-- The box in a layer. `src/json/de.rs:46-49`. -/
def LayerP.box : LayerP → BH
  | .seq q => q
  | .map q => q

/-- A stack entry `(NonNull<dyn Visitor>, Layer)` of `src/json/de.rs:43`. -/
abbrev FrameP := VH × LayerP

/-- `src/json/de.rs:51-58` `impl Drop for Deserializer`. -/
def dropStackP : List FrameP → Prog Unit
  | [] => .ret ()
  | f :: st => (dropP f.2.box).bind fun _ => dropStackP st

/-- Dropping the local `layer` and then the deserializer with its stack, before returning `r`. `src/json/de.rs:51-58,60-69`. -/
def unwindP {α : Type} (layer : LayerP) (stack : List FrameP) (r : Res α) : Prog (Res α) :=
  (dropP layer.box).bind fun _ => (dropStackP stack).bind fun _ => .ret r

/-- `src/json/de.rs:72-105`, as in `visitEvent`. -/
def visitEventP (v : VH) (ev : Event) : Prog (Res (Option LayerP)) :=
  match ev with
  | .seqStart => (openP E v false).bind fun r => .ret (r.map fun q => some (.seq q))
  | .mapStart => (openP E v true).bind fun r => .ret (r.map fun q => some (.map q))
  | ev => (leafP E v ev).bind fun r => .ret (r.map fun _ => none)

/-- How the inner loop `src/json/de.rs:123-152` is left. -/
inductive ExitP where
  | child (d : De) (visitor : VH) (layer : LayerP) (stack : List FrameP)
  | done (d : De)

/-- `src/json/de.rs:131-135`, as in `finishLayer`. -/
def finishLayerP (close : UInt8) (layer : LayerP) : Prog (Res Unit) :=
  match layer with
  | .seq q => if close = b(']') then finishP E q else .ret .err
  | .map q => if close = b('}') then finishP E q else .ret .err

/-- `src/json/de.rs:123-152`: the inner loop, as in `closeLoop`. -/
def closeLoopP (d : De) (acceptComma : Bool) (visitor : VH) (layer : LayerP) (stack : List FrameP) : Prog (Res ExitP) :=
  let (peek, d) := d.parseWhitespace
  let c := peek.getD 0
  if c = b(',') ∧ acceptComma = true then .ret (.ok (.child d.bump visitor layer stack))
  else if c = b(']') ∨ c = b('}') then
    let d := d.bump
    (finishLayerP E c layer).bind fun r =>
      match r with
      | .ok _ =>
        (dropP layer.box).bind fun _ =>
          match stack with
          | [] => .ret (.ok (.done d))
          | frame :: stack => closeLoopP d true frame.1 frame.2 stack
      | r => unwindP layer stack r.fail
  else if acceptComma then unwindP layer stack .err
  else .ret (.ok (.child d visitor layer stack))

/-- `src/json/de.rs:154-177`, as in `openChild`. -/
def openChildP (d : De) (outer : VH) (layer : LayerP) (stack : List FrameP) : Prog (Res (De × VH × List FrameP)) :=
  match layer with
  | .seq q =>
    (childP E q none).bind fun r =>
      match r with
      | .ok v => .ret (.ok (d, v, (outer, .seq q) :: stack))
      | r => unwindP (.seq q) stack r.fail
  | .map q =>
    let (peek, d) := d.parseWhitespace
    if peek = some b('"') then
      match d.bump.parseStr with
      | .ok (k, d) =>
        (childP E q (some k)).bind fun r =>
          match r with
          | .ok v =>
            let (peek, d) := d.parseWhitespace
            if peek = some b(':') then .ret (.ok (d.bump, v, (outer, .map q) :: stack))
            else unwindP (.map q) stack .err
          | r => unwindP (.map q) stack r.fail
      | r => unwindP (.map q) stack r.fail
    else unwindP (.map q) stack .err

/-- `src/json/de.rs:107-121`: what follows the event. -/
def afterEventP (d : De) (visitor : VH) (layer? : Option LayerP) (stack : List FrameP) : Prog (Res ExitP) :=
  match layer? with
  | some layer => closeLoopP E d false visitor layer stack
  | none =>
    match stack with
    | frame :: stack => closeLoopP E d true frame.1 frame.2 stack
    | [] => .ret (.ok (.done d))

/-- `src/json/de.rs:70-183`: the `'outer` loop, as in `outerLoop`. -/
def outerLoopP : Nat → De → VH → List FrameP → Prog (Option (Res Unit))
  | 0, _, _, _ => .ret none
  | fuel + 1, d, visitor, stack =>
    match d.event with
    | .ok (ev, d) =>
      (visitEventP E visitor ev).bind fun r =>
        match r with
        | .ok layer? =>
          (afterEventP E d visitor layer? stack).bind fun r =>
            match r with
            | .ok (.child d visitor layer stack) =>
              (openChildP E d visitor layer stack).bind fun r =>
                match r with
                | .ok (d, visitor, stack) => outerLoopP fuel d visitor stack
                | r => .ret (some r.fail)
            | .ok (.done d) => .ret (some (trailing d))
            | r => .ret (some r.fail)
        | r => (dropStackP stack).bind fun _ => .ret (some r.fail)
    | r => (dropStackP stack).bind fun _ => .ret (some r.fail)

/-- `src/json/de.rs:30-37` `from_str::<T>(j)`, with the same budget of iterations as `fromStr`: the local `out`, the driver, and
`out.ok_or(Error)`. -/
def fromStrP (t : Ty) (j : Bytes) : Prog (Option (Res Val)) :=
  .alloc (.slot none) fun out =>
    (outerLoopP E (j.length + 1) { input := j, pos := 0, buffer := [] } (.place t ⟨out, 0, 0⟩) []).bind fun r =>
      match r with
      | none => .ret none
      | some (.ok _) =>
        (readP ⟨out, 0, 0⟩).bind fun c =>
          match c with
          | some (some v) => (writeP ⟨out, 0, 0⟩ none).bind fun _ => .free out (.ret (some (.ok v)))
          | some none => .free out (.ret (some .err))
          | none => .fault (.free out (.ret (some .panic)))
      | some .err => .free out (.ret (some .err))
      | some .panic => .free out (.ret (some .panic))

/-! ## The pool -/

/-- Threads that each call `from_str` (`src/json/de.rs:30-37`) on one shared heap. -/
structure Pool where
  threads : List (Prog (Option (Res Val)))
  heap : Heap

/-- Thread `i` executes its next memory operation; a thread that has returned, or does not exist, does nothing. One operation
of `src/json/de.rs:30-184`. -/
def Pool.step (P : Pool) (i : Nat) : Pool :=
  match P.threads[i]? with
  | some p => { threads := P.threads.set i (p.step P.heap).1, heap := (p.step P.heap).2 }
  | none => P

/-- The scheduler picks the threads in the order `sched`. Runs of `src/json/de.rs:30-184`. -/
def Pool.run (P : Pool) (sched : List Nat) : Pool := sched.foldl Pool.step P

/-- The pool before the first step: thread `i` is about to call `from_str::<T>(j)` for the `i`-th pair, nothing is allocated. `src/json/de.rs:30-37`. -/
def Pool.start (calls : List (Ty × Bytes)) : Pool :=
  { threads := calls.map fun c => fromStrP E c.1 c.2, heap := { mem := fun _ => none, next := 0, fault := false } }

end Miniserde.Threads
