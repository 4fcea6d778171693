import Verif.Model.Driver

/-!
# The library's containers, generic in their element types

`Model/Visitors.lean` models the `Deserialize` impls of the library for types built from the library's own types and derived ones.  The impls for `Option<T>`,
`Box<T>`, `Vec<T>`, `[T; N]`, `(A, B)`, maps and derived structs are generic: `T` may be any type with a hand-written `Deserialize`.  This file models them for an
arbitrary implementation of `Deserialize` for `T`.

Memory is not the subject here (see `Model/Visitors.lean`, `Model/PanicMem.lean`): builders are cells of a store that only grows, and dropping a cell of the library itself has no effect.
The destructors of the builders of `T` are called; values of `T` are plain data (no destructor).
-/

namespace Miniserde

/-- An implementation of `Deserialize` (`src/de/mod.rs:198-227`) for a type `α`.  The world of its visitors and builders is a state `σ` of its own (or global) and the place `&mut
Option<α>` that `begin` was given; `begin` is the handle of the visitor `Place::new(out)`.  `default` is the hidden method `default` (`None`, except for
`Option<T>`). -/
structure Deser (σ α : Type) where
  P : Proto (σ × Option α)
  begin : P.V
  default : Option α

/-- `src/json/de.rs:30-37` `from_str::<T>`: the result and the state afterwards. -/
def Deser.fromStr {σ α : Type} (I : Deser σ α) (j : Bytes) (w : σ) : Option (Res α × σ) :=
  (fromStrImpl I.P j I.begin (w, none)).map fun r =>
    match r with
    | (.ok _, (w, some a)) => (.ok a, w)
    | (.ok _, (w, none)) => (.err, w)
    | (.err, (w, _)) => (.err, w)
    | (.panic, (w, _)) => (.panic, w)

/-- A leaf method, chosen by the event. `src/json/de.rs:73-96`. -/
def Proto.leaf {σ : Type} (P : Proto σ) (v : P.V) : Event → σ → Res Unit × σ
  | .null, w => P.null v w
  | .bool b, w => P.boolean v b w
  | .str s, w => P.string v s w
  | .negative n, w => P.negative v n w
  | .nonnegative n, w => P.nonnegative v n w
  | .float x, w => P.float v x w
  | _, w => (.err, w)

/-! ## Visitors that hand on to the visitors of other types -/

/-- A `&mut dyn Visitor` made by a generic container: that of the container itself, `<dyn Visitor>::ignore()`, or a visitor of the `i`-th element type for a place in cell number
`a`. `src/de/mod.rs:231-270`. -/
inductive NV (ι : Type) (V : ι → Type) where
  | place
  | ignore
  | sub (a : Nat) (i : ι) (v : V i)

/-- A `Box<dyn Seq>` or `Box<dyn Map>`: `Ignore`, a builder of the container, or a builder of the `i`-th element type for a place in cell number `a`. `src/de/mod.rs:272-286`. -/
inductive NB (O ι : Type) (B : ι → Type) where
  | ignore
  | own (o : O)
  | sub (a : Nat) (i : ι) (b : B i)

/-- What a container with element types `α i`, implemented by `I i`, does itself; `get` and `put` access the places it hands out. The impls of `src/de/impls.rs:159-676`. -/
structure Own (σ ω : Type) {ι : Type} {α : ι → Type} (I : (i : ι) → Deser σ (α i)) where
  OQ : Type
  OM : Type
  get : Nat → (i : ι) → ω → σ × Option (α i)
  put : Nat → (i : ι) → σ × Option (α i) → ω → ω
  leaf : Event → ω → Res Unit × ω
  seq : ω → Res (NB OQ ι fun i => (I i).P.Q) × ω
  map : ω → Res (NB OM ι fun i => (I i).P.M) × ω
  element : OQ → ω → Res (NV ι fun i => (I i).P.V) × ω
  seqFinish : OQ → ω → Res Unit × ω
  key : OM → Bytes → ω → Res (NV ι fun i => (I i).P.V) × ω
  mapFinish : OM → ω → Res Unit × ω
  dropSeq : OQ → ω → ω
  dropMap : OM → ω → ω

namespace Own
variable {σ ω ι : Type} {α : ι → Type} {I : (i : ι) → Deser σ (α i)} (O : Own σ ω I)

/-- A call on something that belongs to the place `i` of cell `a`. `src/de/mod.rs:231-286`, the calls of `src/json/de.rs:73-104,132-133,157,168`. -/
def within {β : Type} (a : Nat) (i : ι) (f : σ × Option (α i) → Res β × (σ × Option (α i))) (w : ω) : Res β × ω :=
  ((f (O.get a i w)).1, O.put a i (f (O.get a i w)).2 w)

/-- A leaf method. `src/json/de.rs:73-96`. -/
def visit (ev : Event) : NV ι (fun i => (I i).P.V) → ω → Res Unit × ω
  | .place, w => O.leaf ev w
  | .ignore, w => (.ok (), w)                                   -- src/ignore.rs:20-43
  | .sub a i v, w => O.within a i ((I i).P.leaf v ev) w

/-- The visitors and builders of the container and of its element types.  `Ignore`: `src/ignore.rs:45-71`. -/
def proto : Proto ω where
  V := NV ι fun i => (I i).P.V
  Q := NB O.OQ ι fun i => (I i).P.Q
  M := NB O.OM ι fun i => (I i).P.M
  null := O.visit .null
  boolean v b := O.visit (.bool b) v
  string v s := O.visit (.str s) v
  negative v n := O.visit (.negative n) v
  nonnegative v n := O.visit (.nonnegative n) v
  float v x := O.visit (.float x) v
  seq
    | .place, w => O.seq w
    | .ignore, w => (.ok .ignore, w)
    | .sub a i v, w => ((O.within a i ((I i).P.seq v) w).1.map (.sub a i), (O.within a i ((I i).P.seq v) w).2)
  map
    | .place, w => O.map w
    | .ignore, w => (.ok .ignore, w)
    | .sub a i v, w => ((O.within a i ((I i).P.map v) w).1.map (.sub a i), (O.within a i ((I i).P.map v) w).2)
  element
    | .own q, w => O.element q w
    | .ignore, w => (.ok .ignore, w)
    | .sub a i q, w => ((O.within a i ((I i).P.element q) w).1.map (.sub a i), (O.within a i ((I i).P.element q) w).2)
  seqFinish
    | .own q, w => O.seqFinish q w
    | .ignore, w => (.ok (), w)
    | .sub a i q, w => O.within a i ((I i).P.seqFinish q) w
  key
    | .own m, k, w => O.key m k w
    | .ignore, _, w => (.ok .ignore, w)
    | .sub a i m, k, w => ((O.within a i ((I i).P.key m k) w).1.map (.sub a i), (O.within a i ((I i).P.key m k) w).2)
  mapFinish
    | .own m, w => O.mapFinish m w
    | .ignore, w => (.ok (), w)
    | .sub a i m, w => O.within a i ((I i).P.mapFinish m) w
  dropSeq
    | .own q, w => O.dropSeq q w
    | .ignore, w => w
    | .sub a i q, w => O.put a i ((I i).P.dropSeq q (O.get a i w)) w
  dropMap
    | .own m, w => O.dropMap m w
    | .ignore, w => w
    | .sub a i m, w => O.put a i ((I i).P.dropMap m (O.get a i w)) w

end Own

/-- The builders of a container; cells from `next` on are fresh. The builder structs of `src/de/impls.rs:233-642`. -/
structure Cells (C : Type) where
  next : Nat
  cell : Nat → C

/-- Overwrite a cell. Assignments to builder fields in `src/de/impls.rs:159-676`. -/
def Cells.set {C : Type} (cs : Cells C) (a : Nat) (c : C) : Cells C := { cs with cell := fun b => if b = a then c else cs.cell b }

/-- `Box::new`. `src/de/impls.rs:215,225,370,423,477,557,626`. -/
def Cells.alloc {C : Type} (cs : Cells C) (c : C) : Cells C := { next := cs.next + 1, cell := fun b => if b = cs.next then c else cs.cell b }

/-- The world of a container with builders `C` and place `Option<ρ>`. `src/json/de.rs:34` (`out`) and the builders of `src/de/impls.rs:159-676`. -/
abbrev World (σ C ρ : Type) := (σ × Cells C) × Option ρ

/-! ## `Vec<T>` -/

/-- `src/de/impls.rs:431-435` `struct VecBuilder`, without `out`. -/
structure VecCell (α : Type) where
  vec : List α
  element : Option α

/-- `src/de/impls.rs:437-443` `shift`. -/
def VecCell.shift {α : Type} (c : VecCell α) : VecCell α :=
  match c.element with
  | some e => ⟨c.vec ++ [e], none⟩
  | none => ⟨c.vec, none⟩

/-- `src/de/impls.rs:409-463` `impl Deserialize for Vec<T>`. -/
def vecOwn {σ α : Type} (I : Deser σ α) : Own σ (World σ (VecCell α) (List α)) (fun _ : Unit => I) where
  OQ := Nat
  OM := Empty
  get a _ w := (w.1.1, (w.1.2.cell a).element)
  put a _ t w := ((t.1, w.1.2.set a { w.1.2.cell a with element := t.2 }), w.2)
  leaf _ w := (.err, w)
  seq w := (.ok (.own w.1.2.next), ((w.1.1, w.1.2.alloc ⟨[], none⟩), w.2))
  map w := (.err, w)
  element a w := (.ok (.sub a () I.begin), ((w.1.1, w.1.2.set a (w.1.2.cell a).shift), w.2))
  seqFinish a w := (.ok (), ((w.1.1, w.1.2.set a ⟨[], none⟩), some (w.1.2.cell a).shift.vec))
  key m := m.elim
  mapFinish m := m.elim
  dropSeq _ w := w
  dropMap m := m.elim

/-- `Vec<T>` for an arbitrary `T`. `src/de/impls.rs:411-463`. -/
def Deser.vec {σ α : Type} (I : Deser σ α) : Deser (σ × Cells (VecCell α)) (List α) := ⟨(vecOwn I).proto, .place, none⟩

/-! ## `[T; N]` -/

/-- `src/de/impls.rs:486-491` `struct ArrayBuilder`, without `out`: the initialised elements (`array[..len]`) and `element`. -/
structure ArrCell (α : Type) where
  init : List α
  element : Option α

/-- `src/de/impls.rs:493-501` `shift` for an array of `n` elements. -/
def ArrCell.shift {α : Type} (n : Nat) (c : ArrCell α) : Res Unit × ArrCell α :=
  match c.element with
  | some e => if c.init.length < n then (.ok (), ⟨c.init ++ [e], none⟩) else (.err, ⟨c.init, none⟩)
  | none => (.ok (), ⟨c.init, none⟩)

/-- `src/de/impls.rs:465-538` `impl Deserialize for [T; N]`. -/
def arrOwn {σ α : Type} (n : Nat) (I : Deser σ α) : Own σ (World σ (ArrCell α) (List α)) (fun _ : Unit => I) where
  OQ := Nat
  OM := Empty
  get a _ w := (w.1.1, (w.1.2.cell a).element)
  put a _ t w := ((t.1, w.1.2.set a { w.1.2.cell a with element := t.2 }), w.2)
  leaf _ w := (.err, w)
  seq w := (.ok (.own w.1.2.next), ((w.1.1, w.1.2.alloc ⟨[], none⟩), w.2))
  map w := (.err, w)
  element a w :=
    match (w.1.2.cell a).shift n with
    | (.ok _, c) => (.ok (.sub a () I.begin), ((w.1.1, w.1.2.set a c), w.2))
    | (_, c) => (.err, ((w.1.1, w.1.2.set a c), w.2))
  seqFinish a w :=
    match (w.1.2.cell a).shift n with
    | (.ok _, c) =>
      if c.init.length < n then (.err, ((w.1.1, w.1.2.set a c), w.2))
      else (.ok (), ((w.1.1, w.1.2.set a ⟨[], none⟩), some c.init))
    | (_, c) => (.err, ((w.1.1, w.1.2.set a c), w.2))
  key m := m.elim
  mapFinish m := m.elim
  dropSeq _ w := w
  dropMap m := m.elim

/-- `[T; N]` for an arbitrary `T`. `src/de/impls.rs:465-538`. -/
def Deser.arr {σ α : Type} (n : Nat) (I : Deser σ α) : Deser (σ × Cells (ArrCell α)) (List α) := ⟨(arrOwn n I).proto, .place, none⟩

/-! ## `(A, B)` -/

/-- The two element types. `src/de/impls.rs:356`. -/
def PairTy (α β : Type) : Bool → Type
  | false => α
  | true => β

/-- Their implementations. `src/de/impls.rs:356-360`. -/
def pairImpls {σ α β : Type} (I : Deser σ α) (J : Deser σ β) : (i : Bool) → Deser σ (PairTy α β i)
  | false => I
  | true => J

/-- `src/de/impls.rs:356-407` `impl Deserialize for (A, B)`; the cell is the field `tuple` of `TupleBuilder`. -/
def pairOwn {σ α β : Type} (I : Deser σ α) (J : Deser σ β) : Own σ (World σ (Option α × Option β) (α × β)) (pairImpls I J) where
  OQ := Nat
  OM := Empty
  get
    | a, false, w => (w.1.1, (w.1.2.cell a).1)
    | a, true, w => (w.1.1, (w.1.2.cell a).2)
  put
    | a, false, t, w => ((t.1, w.1.2.set a (t.2, (w.1.2.cell a).2)), w.2)
    | a, true, t, w => ((t.1, w.1.2.set a ((w.1.2.cell a).1, t.2)), w.2)
  leaf _ w := (.err, w)
  seq w := (.ok (.own w.1.2.next), ((w.1.1, w.1.2.alloc (none, none)), w.2))
  map w := (.err, w)
  element a w :=
    match w.1.2.cell a with
    | (none, _) => (.ok (.sub a false I.begin), w)
    | (some _, none) => (.ok (.sub a true J.begin), w)
    | (some _, some _) => (.err, w)
  seqFinish a w :=
    match w.1.2.cell a with
    | (some x, some y) => (.ok (), ((w.1.1, w.1.2.set a (none, none)), some (x, y)))
    | _ => (.err, ((w.1.1, w.1.2.set a (none, none)), w.2))
  key m := m.elim
  mapFinish m := m.elim
  dropSeq _ w := w
  dropMap m := m.elim

/-- `(A, B)` for arbitrary `A`, `B`. `src/de/impls.rs:356-409`. -/
def Deser.pair {σ α β : Type} (I : Deser σ α) (J : Deser σ β) : Deser (σ × Cells (Option α × Option β)) (α × β) :=
  ⟨(pairOwn I J).proto, .place, none⟩

/-! ## `HashMap<K, T>`, `BTreeMap<K, T>` -/

/-- `src/de/impls.rs:566-571`, `:635-639` `struct MapBuilder`, without `out`. -/
structure MapCell (κ α μ : Type) where
  map : μ
  key : Option κ
  value : Option α

/-- What the impls need of a map type `μ` with keys `κ`: `new`, `insert`, and `FromStr` of the keys. `src/de/impls.rs:540-546,612-616`. -/
structure MapOps (κ α μ : Type) where
  parse : Bytes → Option κ
  empty : μ
  insert : κ → α → μ → μ

/-- `src/de/impls.rs:573-583`, `:641-651` `shift`. -/
def MapCell.shift {κ α μ : Type} (ops : MapOps κ α μ) (c : MapCell κ α μ) : MapCell κ α μ :=
  match c.key, c.value with
  | some k, some v => ⟨ops.insert k v c.map, none, none⟩
  | _, _ => ⟨c.map, none, none⟩

/-- `src/de/impls.rs:540-610`, `:612-676` `impl Deserialize for HashMap<K, V, H>`, `BTreeMap<K, V>`. -/
def mapOwn {σ κ α μ : Type} (ops : MapOps κ α μ) (I : Deser σ α) : Own σ (World σ (MapCell κ α μ) μ) (fun _ : Unit => I) where
  OQ := Empty
  OM := Nat
  get a _ w := (w.1.1, (w.1.2.cell a).value)
  put a _ t w := ((t.1, w.1.2.set a { w.1.2.cell a with value := t.2 }), w.2)
  leaf _ w := (.err, w)
  seq w := (.err, w)
  map w := (.ok (.own w.1.2.next), ((w.1.1, w.1.2.alloc ⟨ops.empty, none, none⟩), w.2))
  element q := q.elim
  seqFinish q := q.elim
  key a k w :=
    match ops.parse k with
    | some k => (.ok (.sub a () I.begin), ((w.1.1, w.1.2.set a { (w.1.2.cell a).shift ops with key := some k }), w.2))
    | none => (.err, ((w.1.1, w.1.2.set a ((w.1.2.cell a).shift ops)), w.2))
  mapFinish a w := (.ok (), ((w.1.1, w.1.2.set a ⟨ops.empty, none, none⟩), some ((w.1.2.cell a).shift ops).map))
  dropSeq q := q.elim
  dropMap _ w := w

/-- `HashMap<K, T>` or `BTreeMap<K, T>` for an arbitrary `T`. `src/de/impls.rs:540-676`. -/
def Deser.map {σ κ α μ : Type} (ops : MapOps κ α μ) (I : Deser σ α) : Deser (σ × Cells (MapCell κ α μ)) μ := ⟨(mapOwn ops I).proto, .place, none⟩

/-! ## `Option<T>` -/

/-- The content of the place inside `Some`; it is used only after `self.out = Some(None)`, so that `self.out.as_mut().unwrap()` does not panic. `src/de/impls.rs:316-349`. -/
def innerPlace {α : Type} : Option (Option α) → Option α
  | some x => x
  | none => none

/-- `src/de/impls.rs:295-354` `impl Deserialize for Option<T>`.  The builders are those of `T`. -/
def optOwn {σ α : Type} (I : Deser σ α) : Own σ (σ × Option (Option α)) (fun _ : Unit => I) where
  OQ := Empty
  OM := Empty
  get _ _ w := (w.1, innerPlace w.2)
  put _ _ t _ := (t.1, some t.2)
  leaf ev w :=
    match ev with
    | .null => (.ok (), (w.1, some none))
    | ev => ((I.P.leaf I.begin ev (w.1, none)).1, ((I.P.leaf I.begin ev (w.1, none)).2.1, some (I.P.leaf I.begin ev (w.1, none)).2.2))
  seq w := ((I.P.seq I.begin (w.1, none)).1.map (.sub 0 ()), ((I.P.seq I.begin (w.1, none)).2.1, some (I.P.seq I.begin (w.1, none)).2.2))
  map w := ((I.P.map I.begin (w.1, none)).1.map (.sub 0 ()), ((I.P.map I.begin (w.1, none)).2.1, some (I.P.map I.begin (w.1, none)).2.2))
  element q := q.elim
  seqFinish q := q.elim
  key m := m.elim
  mapFinish m := m.elim
  dropSeq q := q.elim
  dropMap m := m.elim

/-- `Option<T>` for an arbitrary `T`. `src/de/impls.rs:295-354`. -/
def Deser.opt {σ α : Type} (I : Deser σ α) : Deser σ (Option α) := ⟨(optOwn I).proto, .place, some none⟩

/-! ## `Box<T>` -/

/-- `src/de/impls.rs:233-238`, `:262-267` `struct BoxSeq`, `struct BoxMap`, without `out`: `value`, and whether the inner builder has been replaced by `Ignore`. -/
structure BoxCell (α : Type) where
  value : Option α
  ignore : Bool

/-- `src/de/impls.rs:256-257`, `:285-286`: `*self.out = Some(Box::new(self.value.take().unwrap()))` after the inner builder was replaced. -/
def boxTake {σ α : Type} (a : Nat) (w : World σ (BoxCell α) α) : Res Unit × World σ (BoxCell α) α :=
  match (w.1.2.cell a).value with
  | some v => (.ok (), ((w.1.1, w.1.2.set a ⟨none, true⟩), some v))
  | none => (.panic, ((w.1.1, w.1.2.set a ⟨none, true⟩), w.2))

/-- Access to the place `value` of a cell. `src/de/impls.rs:214,224`. -/
def boxPut {σ α : Type} (a : Nat) (t : σ × Option α) (w : World σ (BoxCell α) α) : World σ (BoxCell α) α :=
  ((t.1, w.1.2.set a { w.1.2.cell a with value := t.2 }), w.2)

/-- `src/de/impls.rs:159-293` `impl Deserialize for Box<T>`.  The handle of a `BoxSeq`/`BoxMap` is its cell and the inner builder. -/
def boxOwn {σ α : Type} (I : Deser σ α) : Own σ (World σ (BoxCell α) α) (fun _ : Unit => I) where
  OQ := Nat × I.P.Q
  OM := Nat × I.P.M
  get a _ w := (w.1.1, (w.1.2.cell a).value)
  put a _ t w := boxPut a t w
  leaf ev w :=
    match I.P.leaf I.begin ev (w.1.1, none) with
    | (.ok _, (s, some v)) => (.ok (), ((s, w.1.2), some v))
    | (.ok _, (s, none)) => (.panic, ((s, w.1.2), w.2))
    | (r, (s, _)) => (r, ((s, w.1.2), w.2))
  seq w :=
    match I.P.seq I.begin (w.1.1, none) with
    | (.ok q, (s, v)) => (.ok (.own (w.1.2.next, q)), ((s, w.1.2.alloc ⟨v, false⟩), w.2))
    | (r, (s, _)) => (r.fail, ((s, w.1.2), w.2))
  map w :=
    match I.P.map I.begin (w.1.1, none) with
    | (.ok q, (s, v)) => (.ok (.own (w.1.2.next, q)), ((s, w.1.2.alloc ⟨v, false⟩), w.2))
    | (r, (s, _)) => (r.fail, ((s, w.1.2), w.2))
  element o w :=
    if (w.1.2.cell o.1).ignore then (.ok .ignore, w)
    else
      let r := I.P.element o.2 (w.1.1, (w.1.2.cell o.1).value)
      (r.1.map (.sub o.1 ()), boxPut o.1 r.2 w)
  seqFinish o w :=
    if (w.1.2.cell o.1).ignore then boxTake o.1 w
    else
      match I.P.seqFinish o.2 (w.1.1, (w.1.2.cell o.1).value) with
      | (.ok _, t) => boxTake o.1 (boxPut o.1 (I.P.dropSeq o.2 t) w)
      | (r, t) => (r, boxPut o.1 t w)
  key o k w :=
    if (w.1.2.cell o.1).ignore then (.ok .ignore, w)
    else
      let r := I.P.key o.2 k (w.1.1, (w.1.2.cell o.1).value)
      (r.1.map (.sub o.1 ()), boxPut o.1 r.2 w)
  mapFinish o w :=
    if (w.1.2.cell o.1).ignore then boxTake o.1 w
    else
      match I.P.mapFinish o.2 (w.1.1, (w.1.2.cell o.1).value) with
      | (.ok _, t) => boxTake o.1 (boxPut o.1 (I.P.dropMap o.2 t) w)
      | (r, t) => (r, boxPut o.1 t w)
  dropSeq o w := if (w.1.2.cell o.1).ignore then w else boxPut o.1 (I.P.dropSeq o.2 (w.1.1, (w.1.2.cell o.1).value)) w
  dropMap o w := if (w.1.2.cell o.1).ignore then w else boxPut o.1 (I.P.dropMap o.2 (w.1.1, (w.1.2.cell o.1).value)) w

/-- `Box<T>` for an arbitrary `T`; the box is identified with its content. `src/de/impls.rs:159-293`. -/
def Deser.box {σ α : Type} (I : Deser σ α) : Deser (σ × Cells (BoxCell α)) α := ⟨(boxOwn I).proto, .place, none⟩

/-! ## Derived structs -/

/-- The first field called `k` (`derive/src/de.rs:92-99`: one match arm per field, in order). -/
def fieldNamed {n : Nat} (names : Fin n → Bytes) (k : Bytes) : Option (Fin n) := (List.finRange n).find? fun i => names i == k

/-- `derive/src/de.rs:102-104`: the values of all fields, if they are all there. -/
def fieldsTaken {n : Nat} {α : Fin n → Type} (c : (i : Fin n) → Option (α i)) : Option ((i : Fin n) → α i) :=
  if h : ∀ i, (c i).isSome = true then some fun i => (c i).get (h i) else none

/-- What `take()` leaves: the fields up to the first missing one are empty. `derive/src/de.rs:101-104`. -/
def fieldsLeft {n : Nat} {α : Fin n → Type} (c : (i : Fin n) → Option (α i)) (i : Fin n) : Option (α i) :=
  if ∀ j, j ≤ i → (c j).isSome = true then none else c i

/-- `derive/src/de.rs:54-115`, the code generated for a struct whose `i`-th field has type `α i` and name `names i`; the cell is `__State` without `__out`. -/
def structOwn {σ : Type} {n : Nat} {α : Fin n → Type} (names : Fin n → Bytes) (I : (i : Fin n) → Deser σ (α i)) :
    Own σ (World σ ((i : Fin n) → Option (α i)) ((i : Fin n) → α i)) I where
  OQ := Empty
  OM := Nat
  get a i w := (w.1.1, w.1.2.cell a i)
  put a i t w := ((t.1, w.1.2.set a fun j => if h : j = i then h ▸ t.2 else w.1.2.cell a j), w.2)
  leaf _ w := (.err, w)
  seq w := (.err, w)
  map w := (.ok (.own w.1.2.next), ((w.1.1, w.1.2.alloc fun i => (I i).default), w.2))
  element q := q.elim
  seqFinish q := q.elim
  key a k w :=
    match fieldNamed names k with
    | some i => (.ok (.sub a i (I i).begin), w)
    | none => (.ok .ignore, w)
  mapFinish a w :=
    match fieldsTaken (w.1.2.cell a) with
    | some v => (.ok (), ((w.1.1, w.1.2.set a (fieldsLeft (w.1.2.cell a))), some v))
    | none => (.err, ((w.1.1, w.1.2.set a (fieldsLeft (w.1.2.cell a))), w.2))
  dropSeq q := q.elim
  dropMap _ w := w

/-- A derived struct with fields of arbitrary types. `derive/src/de.rs:53-114`. -/
def Deser.struct {σ : Type} {n : Nat} {α : Fin n → Type} (names : Fin n → Bytes) (I : (i : Fin n) → Deser σ (α i)) :
    Deser (σ × Cells ((i : Fin n) → Option (α i))) ((i : Fin n) → α i) := ⟨(structOwn names I).proto, .place, none⟩

/-! ## An implementation as part of a bigger program -/

/-- Access to a part `σ` of a bigger state `ρ`. Not code: the builders of the fields of a struct, `derive/src/de.rs:84-89`. -/
structure Part (ρ σ : Type) where
  get : ρ → σ
  put : σ → ρ → ρ
  get_put : ∀ s r, get (put s r) = s
  put_put : ∀ s s' r, put s (put s' r) = put s r
  put_get : ∀ r, put (get r) r = r

/-- The places of an implementation whose state is part of a bigger one.  Not code: it lets the fields of a struct, whose builders live side by side in the heap, share one state. `derive/src/de.rs:84-89`. -/
def partOwn {ρ σ α : Type} (p : Part ρ σ) (I : Deser σ α) : Own σ (ρ × Option α) (fun _ : Unit => I) where
  OQ := Empty
  OM := Empty
  get _ _ w := (p.get w.1, w.2)
  put _ _ t w := (p.put t.1 w.1, t.2)
  leaf _ w := (.err, w)
  seq w := (.err, w)
  map w := (.err, w)
  element q := q.elim
  seqFinish q := q.elim
  key m := m.elim
  mapFinish m := m.elim
  dropSeq q := q.elim
  dropMap m := m.elim

/-- The same implementation, its state being part of a bigger one. `derive/src/de.rs:84-89`. -/
def Deser.inside {ρ σ α : Type} (p : Part ρ σ) (I : Deser σ α) : Deser ρ α := ⟨(partOwn p I).proto, .sub 0 () I.begin, I.default⟩

end Miniserde
