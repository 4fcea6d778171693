import Verif.Spec.Sound

/-!
# Programs that call `Visitor`, `Seq` and `Map` themselves

`from_str` is not the only program that can drive the library's visitors: `Deserialize::begin`, `Visitor`, `Seq` and `Map` are public, and safe code may call
their methods in any order, any number of times, with any arguments, may give up a `Box<dyn Seq>` early, may leak it with `mem::forget`, and may catch a panic
and go on.  All that Rust's type system enforces is borrowing: as long as something borrowed from a variable, visitor or builder is still going to be
used, that variable, visitor or builder cannot be touched.

A `Client` is the state of such a program: the heap, and the variables of type `Option<T>` it has, each with the references into it that are still alive,
innermost first.  `CStep` are the things it can do next.
-/

namespace Miniserde

/-- A reference the program holds: a `&mut dyn Visitor`, or a `Box<dyn Seq>` (`isMap = false`) or `Box<dyn Map>`.  `finished` records that a call of `finish`
has returned `Ok`. -/
inductive Hold where
  | visitor (v : VH)
  | builder (q : BH) (isMap : Bool) (finished : Bool)
  deriving Repr

/-- A variable `let mut out: Option<T>` of the program, with what is borrowed from it, innermost first. -/
structure OutVar where
  ty : Ty
  addr : Nat
  refs : List Hold

/-- The state of the program. -/
structure Client where
  heap : Heap
  vars : List OutVar

/-- The arguments a caller can pass to the leaf methods: any `bool`, `&str`, `i64`, `u64`, `f64`. -/
def Event.Legal : Event → Prop
  | .null | .bool _ => True
  | .str s => ValidUtf8 s
  | .negative n => i64Min ≤ n ∧ n ≤ i64Max
  | .nonnegative n => n ≤ u64Max
  | .float x => x.Valid binary64
  | _ => False

/-- Everything in an `Option<T>` is a `T`. -/
def Content (E : Env) (t : Ty) (c : Option Val) : Prop := ∀ v, c = some v → HasTy E t v

/-- The call panicked. -/
def Res.panicked {α : Type} : Res α → Bool
  | .panic => true
  | _ => false

/-- The references after a call that hands out a new one if it succeeds. -/
def handOut {α : Type} (f : α → Hold) (refs : List Hold) : Res α → List Hold
  | .ok a => f a :: refs
  | _ => refs

/-- The references after `finish` on the innermost one. -/
def markFinished : List Hold → Res Unit → List Hold
  | .builder q k _ :: refs, .ok _ => .builder q k true :: refs
  | refs, _ => refs

/-- What a safe program can do next, and whether it panics (it may catch the panic and go on). -/
inductive CStep (E : Env) : Client → Bool → Client → Prop
  /-- `let mut out: Option<T> = c;` -/
  | declare {h vars} (t : Ty) (ht : t.Small) (c : Option Val) (hc : Content E t c) :
      CStep E ⟨h, vars⟩ false ⟨(h.alloc (.slot c)).2, ⟨t, (h.alloc (.slot c)).1, []⟩ :: vars⟩
  /-- `out = c;`, also moving the value out (`c = none`); nothing may be borrowed. -/
  | assign {h pre t a post} (c : Option Val) (hc : Content E t c) :
      CStep E ⟨h, pre ++ ⟨t, a, []⟩ :: post⟩ false ⟨h.write ⟨a, 0, 0⟩ c, pre ++ ⟨t, a, []⟩ :: post⟩
  /-- The variable goes out of scope. -/
  | scope {h pre t a post} : CStep E ⟨h, pre ++ ⟨t, a, []⟩ :: post⟩ false ⟨h.free a, pre ++ post⟩
  /-- `Deserialize::begin(&mut out)` -/
  | begin {h pre t a post} :
      CStep E ⟨h, pre ++ ⟨t, a, []⟩ :: post⟩ false ⟨h, pre ++ ⟨t, a, [.visitor (.place t ⟨a, 0, 0⟩)]⟩ :: post⟩
  /-- `v.null()`, `v.boolean(b)`, `v.string(s)`, `v.negative(n)`, `v.nonnegative(n)`, `v.float(x)` -/
  | leaf {h pre t a v refs post} (ev : Event) (he : ev.Legal) :
      CStep E ⟨h, pre ++ ⟨t, a, .visitor v :: refs⟩ :: post⟩ (leafAt E v ev h).1.panicked
        ⟨(leafAt E v ev h).2, pre ++ ⟨t, a, .visitor v :: refs⟩ :: post⟩
  /-- `v.seq()`, `v.map()` -/
  | open {h pre t a v refs post} (isMap : Bool) :
      CStep E ⟨h, pre ++ ⟨t, a, .visitor v :: refs⟩ :: post⟩ (openV E v isMap h).1.panicked
        ⟨(openV E v isMap h).2,
          pre ++ ⟨t, a, handOut (fun q => .builder q isMap false) (.visitor v :: refs) (openV E v isMap h).1⟩ :: post⟩
  /-- `q.element()` -/
  | element {h pre t a q fin refs post} :
      CStep E ⟨h, pre ++ ⟨t, a, .builder q false fin :: refs⟩ :: post⟩ (childB E q none h).1.panicked
        ⟨(childB E q none h).2, pre ++ ⟨t, a, handOut .visitor (.builder q false fin :: refs) (childB E q none h).1⟩ :: post⟩
  /-- `q.key(k)` -/
  | key {h pre t a q fin refs post} (k : Bytes) (hk : ValidUtf8 k) :
      CStep E ⟨h, pre ++ ⟨t, a, .builder q true fin :: refs⟩ :: post⟩ (childB E q (some k) h).1.panicked
        ⟨(childB E q (some k) h).2, pre ++ ⟨t, a, handOut .visitor (.builder q true fin :: refs) (childB E q (some k) h).1⟩ :: post⟩
  /-- `q.finish()` -/
  | finish {h pre t a q k fin refs post} :
      CStep E ⟨h, pre ++ ⟨t, a, .builder q k fin :: refs⟩ :: post⟩ (finishB E q h).1.panicked
        ⟨(finishB E q h).2, pre ++ ⟨t, a, markFinished (.builder q k fin :: refs) (finishB E q h).1⟩ :: post⟩
  /-- A visitor is used no more. -/
  | release {h pre t a v refs post} :
      CStep E ⟨h, pre ++ ⟨t, a, .visitor v :: refs⟩ :: post⟩ false ⟨h, pre ++ ⟨t, a, refs⟩ :: post⟩
  /-- `drop(q)` -/
  | drop {h pre t a q k fin refs post} :
      CStep E ⟨h, pre ++ ⟨t, a, .builder q k fin :: refs⟩ :: post⟩ false ⟨dropB q h, pre ++ ⟨t, a, refs⟩ :: post⟩

/-- `mem::forget(q)`: it is used no more, and its destructor is not run. -/
inductive CForget : Client → Client → Prop
  | forget {h pre t a q k fin refs post} :
      CForget ⟨h, pre ++ ⟨t, a, .builder q k fin :: refs⟩ :: post⟩ ⟨h, pre ++ ⟨t, a, refs⟩ :: post⟩

/-- No variables, nothing allocated. -/
def Client.start : Client := ⟨⟨fun _ => none, 0, false⟩, []⟩

/-- Reachable states; `leaky = true` if `mem::forget` may have been used. -/
inductive CReach (E : Env) : Bool → Client → Prop
  | start : CReach E false .start
  | step {leaky c p c'} (h : CReach E leaky c) (s : CStep E c p c') : CReach E leaky c'
  | forget {leaky c c'} (h : CReach E leaky c) (s : CForget c c') : CReach E true c'

end Miniserde
