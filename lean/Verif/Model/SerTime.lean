import Verif.Model.Ser

/-!
# The serializer with a step counter

The same functions as in `Model/Ser.lean`, which also count their elementary steps and the bytes appended to the output.  Counted as steps are: every byte of a string looked up in the table `ESCAPE`,
every byte appended to the output, every call of a method of `Serialize`, `Seq` or `Map`, every look at the top of the stack, every layer pushed on or popped off the stack and every box dropped.
Between two counted steps the Rust code does a fixed amount of work, except inside the implementation of `Serialize`, which belongs to the caller, for the reallocations of `out` and of the stack,
which are amortized by the pushes, and for the formatting of a number by `itoa` or `ryu` into a buffer of fixed size.
-/

namespace Miniserde

/-- What has been done so far. By `src/json/ser.rs:53-179`. -/
structure Work where
  /-- elementary steps -/
  steps : Nat := 0
  /-- bytes appended to `out` -/
  written : Nat := 0

/-- `n` more steps. `src/json/ser.rs:53-179`. -/
def Work.tick (k : Work) (n : Nat) : Work := { k with steps := k.steps + n }

/-- `n` bytes appended to `out`. `src/json/ser.rs:60-126,139-178`. -/
def Work.push (k : Work) (n : Nat) : Work := ⟨k.steps + n, k.written + n⟩

/-- `src/json/ser.rs:144-172`: one look into the table per byte; the bytes since the last escape and the escape are copied. -/
def escapeLoopC (value : Bytes) : Nat → Nat → Bytes → Bytes → Work → Option (Nat × Bytes) × Work
  | _, start, out, [], k => (some (start, out), k)
  | i, start, out, byte :: rest, k =>
    match SER_ESCAPE[byte.toNat]? with
    | none => (none, k.tick 1)
    | some escape =>
      if escape = 0 then escapeLoopC value (i + 1) start out rest (k.tick 1)
      else
        match (if start < i then (sliceStr value start i).map (out ++ ·) else some out) with
        | none => (none, k.tick 1)
        | some out =>
          match pushEscape escape byte with
          | none => (none, (k.tick 1).push (i - start))
          | some e => escapeLoopC value (i + 1) (i + 1) (out ++ e) rest (((k.tick 1).push (i - start)).push e.length)

/-- `src/json/ser.rs:138-179` `fn escape_str`. -/
def escapeStrC (value out : Bytes) (k : Work) : Option Bytes × Work :=
  match escapeLoopC value 0 0 (out ++ [b('"')]) value (k.push 1) with
  | (none, k) => (none, k)
  | (some (start, out), k) =>
    match (if start ≠ value.length then (sliceStr value start value.length).map (out ++ ·) else some out) with
    | none => (none, k)
    | some out => (some (out ++ [b('"')]), (k.push (value.length - start)).push 1)

section
variable {σ : Type} {P : SProto σ}

/-- `fragment = s.begin()`: one call; when it panics, every layer is popped and dropped. `src/json/ser.rs:56,78,93,108,123`. -/
def beginWithC (out : Bytes) (stack : List (SLayer P)) (s : P.S) (w : σ) (k : Work) : SExit P × Work :=
  match P.begin s w with
  | (some f, w) => (.running ⟨out, stack, f, w⟩, k.tick 1)
  | (none, w) => (.finished none (dropLayers stack w), k.tick (1 + 2 * stack.length))

/-- `src/json/ser.rs:101-132`: the inner loop.  Per iteration one look at the top of the stack and one call of `next`; a layer is popped and dropped. -/
def advanceC (out : Bytes) : List (SLayer P) → σ → Work → SExit P × Work
  | [], w, k => (.finished (some out) w, k.tick 1)
  | .seq q :: stack, w, k =>
    match P.seqNext q w with
    | (some (some next), w) => beginWithC (out ++ [b(',')]) (.seq q :: stack) next w ((k.tick 2).push 1)
    | (some none, w) => advanceC (out ++ [b(']')]) stack (P.dropSeq q w) (((k.tick 2).push 1).tick 2)
    | (none, w) => (.finished none (dropLayers (.seq q :: stack) w), k.tick (2 + 2 * (stack.length + 1)))
  | .map m :: stack, w, k =>
    match P.mapNext m w with
    | (some (some (key, next)), w) =>
      match escapeStrC key (out ++ [b(',')]) ((k.tick 2).push 1) with
      | (some out, k) => beginWithC (out ++ [b(':')]) (.map m :: stack) next w (k.push 1)
      | (none, k) => (.finished none (dropLayers (.map m :: stack) w), k.tick (2 * (stack.length + 1)))
    | (some none, w) => advanceC (out ++ [b('}')]) stack (P.dropMap m w) (((k.tick 2).push 1).tick 2)
    | (none, w) => (.finished none (dropLayers (.map m :: stack) w), k.tick (2 + 2 * (stack.length + 1)))

/-- `src/json/ser.rs:58-133`: one iteration of the main loop. -/
def stepSC (ryu : F64 → Bytes) (st : SSt P) (k : Work) : SExit P × Work :=
  match st.frag with
  | .null => advanceC (st.out ++ str! "null") st.stack st.w (k.push 4)
  | .bool b => advanceC (st.out ++ (if b then str! "true" else str! "false")) st.stack st.w (k.push (if b then 4 else 5))
  | .str s =>
    match escapeStrC s st.out k with
    | (some out, k) => advanceC out st.stack st.w k
    | (none, k) => (.finished none (dropLayers st.stack st.w), k.tick (2 * st.stack.length))
  | .u64 n => advanceC (st.out ++ decimal n) st.stack st.w (k.push (decimal n).length)
  | .i64 z => advanceC (st.out ++ decimalInt z) st.stack st.w (k.push (decimalInt z).length)
  | .f64 x => advanceC (st.out ++ (if x.isFinite then ryu x else str! "null")) st.stack st.w (k.push (if x.isFinite then (ryu x).length else 4))
  | .seq q =>
    match P.seqNext q st.w with
    | (some (some first), w) => beginWithC (st.out ++ [b('[')]) (.seq q :: st.stack) first w (((k.push 1).tick 1).tick 1)
    | (some none, w) => advanceC (st.out ++ [b('['), b(']')]) st.stack (P.dropSeq q w) ((((k.push 1).tick 1).push 1).tick 1)
    | (none, w) => (.finished none (dropLayers st.stack (P.dropSeq q w)), (k.push 1).tick (2 + 2 * st.stack.length))
  | .map m =>
    match P.mapNext m st.w with
    | (some (some (key, first)), w) =>
      match escapeStrC key (st.out ++ [b('{')]) ((k.push 1).tick 1) with
      | (some out, k) => beginWithC (out ++ [b(':')]) (.map m :: st.stack) first w ((k.push 1).tick 1)
      | (none, k) => (.finished none (dropLayers st.stack (P.dropMap m w)), k.tick (1 + 2 * st.stack.length))
    | (some none, w) => advanceC (st.out ++ [b('{'), b('}')]) st.stack (P.dropMap m w) ((((k.push 1).tick 1).push 1).tick 1)
    | (none, w) => (.finished none (dropLayers st.stack (P.dropMap m w)), (k.push 1).tick (2 + 2 * st.stack.length))

/-- At most `n` iterations of the main loop. `src/json/ser.rs:58-133`. -/
def runSC (ryu : F64 → Bytes) : Nat → SExit P × Work → SExit P × Work
  | 0, x => x
  | n + 1, (.running st, k) => runSC ryu n (stepSC ryu st k)
  | _ + 1, (.finished o w, k) => (.finished o w, k)

variable (P)

/-- `src/json/ser.rs:28-33, 53-134` `fn to_string`, `fn to_string_impl`: the state after at most `n` iterations of the main loop, and the work done. -/
def toStringC (ryu : F64 → Bytes) (n : Nat) (value : P.S) (w : σ) : SExit P × Work :=
  runSC ryu n (beginWithC [] [] value w {})

end

end Miniserde
