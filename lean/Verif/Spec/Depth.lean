import Verif.Model.Visitors
import Verif.Model.SerLib

/-!
# Implementations with a limited call depth

The library's `Visitor`, `Seq`, `Map` and `Serialize` implementations call each other only through `Box` and `Option`, which forward every call.  Here are the
same implementations with a limit `d` on the number of nested calls: a call beyond the limit is a panic (in Rust: the stack overflows).
Only forwarding through `Box` and `Option` is counted; `Value` forwards once to `Number`, `Array` or `Object` (a constant, counted as part of the call).
-/

namespace Miniserde

/-! ## How many wrappers a type has -/

/-- Number of `Box` and `Option` directly around a type. -/
def Ty.wraps : Ty → Nat
  | .box t => t.wraps + 1
  | .opt t => t.wraps + 1
  | _ => 0

/-- The same, at the worst place inside the type. -/
def Ty.maxWraps : Ty → Nat
  | .box t => max (t.wraps + 1) t.maxWraps
  | .opt t => max (t.wraps + 1) t.maxWraps
  | .tup a b => max a.maxWraps b.maxWraps
  | .vec t => t.maxWraps
  | .arr t _ => t.maxWraps
  | .hmap _ t => t.maxWraps
  | .bmap _ t => t.maxWraps
  | _ => 0

/-! ## Deserialization -/

/-- `leafOn` with at most `d` nested calls. -/
def leafOnL (E : Env) : Nat → Ty → Event → Option Val → Res Unit × Option Val
  | 0, _, _, c => (.panic, c)
  | d + 1, .opt t, ev, _ =>
    match ev with
    | .null => (.ok (), some .optNone)
    | ev => ((leafOnL E d t ev none).1, someOpt (leafOnL E d t ev none).2)
  | d + 1, .box t, ev, c =>
    match leafOnL E d t ev none with
    | (.ok _, some v) => (.ok (), some (.box v))
    | (.ok _, none) => (.panic, c)
    | (.err, _) => (.err, c)
    | (.panic, _) => (.panic, c)
  | _ + 1, t, ev, c =>
    match scalarLeaf E t ev with
    | some v => (.ok (), some v)
    | none => (.err, c)

/-- `leafAt` with at most `d` nested calls. -/
def leafAtL (E : Env) (d : Nat) (v : VH) (ev : Event) (h : Heap) : Res Unit × Heap :=
  match v with
  | .ignore => (.ok (), h)
  | .place t p =>
    match h.mem.read p with
    | some c => ((leafOnL E d t ev c).1, h.write p (leafOnL E d t ev c).2)
    | none => (.panic, h.bad)

/-- `openPlace` with at most `d` nested calls. -/
def openPlaceL (E : Env) : Nat → Ty → Ptr → Bool → Heap → Res BH × Heap
  | 0, _, _, _, h => (.panic, h)
  | d + 1, .opt t, p, isMap, h => openPlaceL E d t p.deref isMap (h.write p (some .optNone))
  | d + 1, .box t, p, isMap, h =>
    let s := (h.alloc (.slot none)).1
    match openPlaceL E d t ⟨s, 0, 0⟩ isMap (h.alloc (.slot none)).2 with
    | (.ok q, h) => (.ok (.at (h.alloc (.boxB p s q)).1), (h.alloc (.boxB p s q)).2)
    | (.err, h) => (.err, h.free s)
    | (.panic, h) => (.panic, h.free s)
  | _ + 1, t, p, isMap, h =>
    match t.core E isMap with
    | some core => (.ok (.at (h.alloc (.builder p core)).1), (h.alloc (.builder p core)).2)
    | none => (.err, h)

/-- `openV` with at most `d` nested calls. -/
def openVL (E : Env) (d : Nat) (v : VH) (isMap : Bool) (h : Heap) : Res BH × Heap :=
  match v with
  | .ignore => (.ok .ignore, h)
  | .place t p => openPlaceL E d t p isMap h

/-- `childAt` with at most `d` nested calls. -/
def childAtL (E : Env) : Nat → Nat → Option Bytes → Heap → Res VH × Heap
  | 0, _, _, h => (.panic, h)
  | d + 1, a, k?, h =>
    match h.mem a with
    | some (.builder out core) =>
      match core.child E k? with
      | some (.ok (some (f, t)), core') => (.ok (.place t ⟨a, f, 0⟩), h.set a (.builder out core'))
      | some (.ok none, core') => (.ok .ignore, h.set a (.builder out core'))
      | some (.err, core') => (.err, h.set a (.builder out core'))
      | some (.panic, core') => (.panic, h.set a (.builder out core'))
      | none => (.panic, h.bad)
    | some (.boxB _ _ .ignore) => (.ok .ignore, h)
    | some (.boxB _ _ (.at a')) => if a' < a then childAtL E d a' k? h else (.panic, h.bad)
    | _ => (.panic, h.bad)

/-- `dropAt` with at most `d` nested calls. -/
def dropAtL : Nat → Nat → Heap → Heap
  | 0, _, h => h.bad
  | d + 1, a, h =>
    match h.mem a with
    | some (.builder _ _) => h.free a
    | some (.boxB _ value .ignore) => (h.free value).free a
    | some (.boxB _ value (.at a')) => if a' < a then ((dropAtL d a' h).free value).free a else h.bad
    | _ => h.bad

/-- `finishAt` with at most `d` nested calls. -/
def finishAtL (E : Env) : Nat → Nat → Heap → Res Unit × Heap
  | 0, _, h => (.panic, h)
  | d + 1, a, h =>
    match h.mem a with
    | some (.builder out core) =>
      match core.finish E with
      | some (.ok v, core') => (.ok (), (h.set a (.builder out core')).write out (some v))
      | some (.err, core') => (.err, h.set a (.builder out core'))
      | some (.panic, core') => (.panic, h.set a (.builder out core'))
      | none => (.panic, h.bad)
    | some (.boxB out value .ignore) => boxFinish a out value h
    | some (.boxB out value (.at a')) =>
      if a' < a then
        match finishAtL E d a' h with
        | (.ok _, h) => boxFinish a out value (dropAtL d a' h)
        | (.err, h) => (.err, h)
        | (.panic, h) => (.panic, h)
      else (.panic, h.bad)
    | _ => (.panic, h.bad)

/-- A `Box<dyn Seq>`/`Box<dyn Map>` that is the zero-sized `Ignore` answers directly. -/
def onBuilder {α : Type} (q : BH) (dflt : α) (f : Nat → α) : α :=
  match q with
  | .ignore => dflt
  | .at a => f a

/-- The library's implementation of the traits `Visitor`, `Seq`, `Map`, with at most `d` nested calls. -/
def libL (E : Env) (d : Nat) : Proto Heap where
  V := VH
  Q := BH
  M := BH
  null v := leafAtL E d v .null
  boolean v b := leafAtL E d v (.bool b)
  string v s := leafAtL E d v (.str s)
  negative v n := leafAtL E d v (.negative n)
  nonnegative v n := leafAtL E d v (.nonnegative n)
  float v x := leafAtL E d v (.float x)
  seq v := openVL E d v false
  map v := openVL E d v true
  element q h := onBuilder q (.ok .ignore, h) fun a => childAtL E d a none h
  seqFinish q h := onBuilder q (.ok (), h) fun a => finishAtL E d a h
  key m k h := onBuilder m (.ok .ignore, h) fun a => childAtL E d a (some k) h
  mapFinish m h := onBuilder m (.ok (), h) fun a => finishAtL E d a h
  dropSeq q h := onBuilder q h fun a => dropAtL d a h
  dropMap m h := onBuilder m h fun a => dropAtL d a h

/-- `from_str::<T>` with at most `d` nested calls below the driver's loop. -/
def fromStrL (E : Env) (d : Nat) (t : Ty) (j : Bytes) : Option (Res Val × Heap) :=
  (fromStrImpl (libL E d) j (.place t ⟨0, 0, 0⟩) Heap.init).map fun rh =>
    match rh.1 with
    | .ok _ =>
      match rh.2.mem.read ⟨0, 0, 0⟩ with
      | some (some v) => (.ok v, rh.2.write ⟨0, 0, 0⟩ none)
      | some none => (.err, rh.2)
      | none => (.panic, rh.2.bad)
    | .err => (.err, rh.2)
    | .panic => (.panic, rh.2)

/-! ## Serialization -/

/-- `beginVal` with at most `d` nested calls. -/
def beginValL (E : Env) (order : Nat → List (Bytes × Val) → List (Bytes × Val)) : Nat → Ty → Val → SHeap → Option (Frag Nat Nat) × SHeap
  | 0, _, _, h => (none, h)
  | d + 1, .box t, .box v, h => beginValL E order d t v h
  | d + 1, .opt t, .optSome v, h => beginValL E order d t v h
  | _ + 1, t, v, h => beginVal E order t v h

/-- The library's implementation of `Serialize`, with at most `d` nested calls. -/
def serLibL (E : Env) (order : Nat → List (Bytes × Val) → List (Bytes × Val)) (d : Nat) : SProto SHeap where
  S := Ty × Val
  Q := Nat
  M := Nat
  begin s h := beginValL E order d s.1 s.2 h
  seqNext := seqNextLib
  mapNext := mapNextLib E
  dropSeq := SHeap.free
  dropMap := SHeap.free

/-- `json::to_string` of the value `v` of type `t` returns the text `o`, with at most `d` nested calls below the driver's loop. -/
def PrintsAsL (E : Env) (order : Nat → List (Bytes × Val) → List (Bytes × Val)) (ryu : F64 → Bytes) (d : Nat) (t : Ty) (v : Val) (o : Bytes) : Prop :=
  ∃ h n, toStringN (serLibL E order d) ryu n (t, v) SHeap.empty = .finished (some o) h

end Miniserde
