import Verif.Model.Ser

/-!
# The serializer when destructors panic

`Model/Ser.lean` assumes that the destructors of `Box<dyn Seq>` and `Box<dyn Map>` do not panic.  This is the same serializer without that assumption; see
`Model/Unwind.lean` for Rust's rules.
-/

namespace Miniserde

/-- How `to_string_impl` ends. `src/json/ser.rs:53-134`. -/
inductive SUOut where
  | ok (out : Bytes)
  | panic
  /-- The process is aborted: a destructor panicked during unwinding. -/
  | abort
  deriving DecidableEq, Repr

section
variable {σ : Type} (P : SProto σ)

/-- Either the main loop goes on or `to_string_impl` has ended. `src/json/ser.rs:58-133`. -/
inductive SUExit where
  | running (st : SSt P)
  | finished (o : SUOut) (w : σ)

variable {P} (bomb : SLayer P → σ → Bool)

/-- `src/json/ser.rs:44-51` `Serializer::drop` during unwinding.  (When `to_string_impl` returns, the stack is empty, line 129.) -/
def unwindLayers : List (SLayer P) → σ → SUOut × σ
  | [], w => (.panic, w)
  | l :: st, w => if bomb l w then (.abort, l.drop w) else unwindLayers st (l.drop w)

/-- A panic while the given layers are alive, innermost first. `src/json/ser.rs:44-51`. -/
def leaveS (st : List (SLayer P)) (w : σ) : SUExit P := .finished (unwindLayers bomb st w).1 (unwindLayers bomb st w).2

/-- As `beginWith`. `src/json/ser.rs:56,78,93,108,123`. -/
def beginU (out : Bytes) (stack : List (SLayer P)) (s : P.S) (w : σ) : SUExit P :=
  match P.begin s w with
  | (some f, w) => .running ⟨out, stack, f, w⟩
  | (none, w) => leaveS bomb stack w

/-- `src/json/ser.rs:101-132`, as `advance`: the destructor called by `pop` (line 131) may panic. -/
def advanceU (out : Bytes) : List (SLayer P) → σ → SUExit P
  | [], w => .finished (.ok out) w
  | .seq q :: stack, w =>
    match P.seqNext q w with
    | (some (some next), w) => beginU bomb (out ++ [b(',')]) (.seq q :: stack) next w
    | (some none, w) => if bomb (.seq q) w then leaveS bomb stack (P.dropSeq q w) else advanceU (out ++ [b(']')]) stack (P.dropSeq q w)
    | (none, w) => leaveS bomb (.seq q :: stack) w
  | .map m :: stack, w =>
    match P.mapNext m w with
    | (some (some (key, next)), w) =>
      match escapeStr key (out ++ [b(',')]) with
      | some out => beginU bomb (out ++ [b(':')]) (.map m :: stack) next w
      | none => leaveS bomb (.map m :: stack) w
    | (some none, w) => if bomb (.map m) w then leaveS bomb stack (P.dropMap m w) else advanceU (out ++ [b('}')]) stack (P.dropMap m w)
    | (none, w) => leaveS bomb (.map m :: stack) w

/-- `src/json/ser.rs:58-133`, as `stepS`: the destructor of an empty sequence or map (lines 82, 97) may panic; the stream that was just opened is the innermost thing alive,
whether it is in a local variable or on the stack. -/
def stepU (ryu : F64 → Bytes) (st : SSt P) : SUExit P :=
  match st.frag with
  | .null => advanceU bomb (st.out ++ str! "null") st.stack st.w
  | .bool b => advanceU bomb (st.out ++ (if b then str! "true" else str! "false")) st.stack st.w
  | .str s =>
    match escapeStr s st.out with
    | some out => advanceU bomb out st.stack st.w
    | none => leaveS bomb st.stack st.w
  | .u64 n => advanceU bomb (st.out ++ decimal n) st.stack st.w
  | .i64 z => advanceU bomb (st.out ++ decimalInt z) st.stack st.w
  | .f64 x => advanceU bomb (st.out ++ (if x.isFinite then ryu x else str! "null")) st.stack st.w
  | .seq q =>
    match P.seqNext q st.w with
    | (some (some first), w) => beginU bomb (st.out ++ [b('[')]) (.seq q :: st.stack) first w
    | (some none, w) => if bomb (.seq q) w then leaveS bomb st.stack (P.dropSeq q w) else advanceU bomb (st.out ++ [b('['), b(']')]) st.stack (P.dropSeq q w)
    | (none, w) => leaveS bomb (.seq q :: st.stack) w
  | .map m =>
    match P.mapNext m st.w with
    | (some (some (key, first)), w) =>
      match escapeStr key (st.out ++ [b('{')]) with
      | some out => beginU bomb (out ++ [b(':')]) (.map m :: st.stack) first w
      | none => leaveS bomb (.map m :: st.stack) w
    | (some none, w) => if bomb (.map m) w then leaveS bomb st.stack (P.dropMap m w) else advanceU bomb (st.out ++ [b('{'), b('}')]) st.stack (P.dropMap m w)
    | (none, w) => leaveS bomb (.map m :: st.stack) w

/-- At most `n` iterations of the main loop. `src/json/ser.rs:58-133`. -/
def runU (ryu : F64 → Bytes) : Nat → SUExit P → SUExit P
  | 0, x => x
  | n + 1, .running st => runU ryu n (stepU bomb ryu st)
  | _ + 1, .finished o w => .finished o w

variable (P)

/-- `src/json/ser.rs:28-33, 53-134` `fn to_string`, `fn to_string_impl`: the state after at most `n` iterations of the main loop. -/
def toStringU (ryu : F64 → Bytes) (n : Nat) (value : P.S) (w : σ) : SUExit P :=
  runU bomb ryu n (beginU bomb [] [] value w)

end

end Miniserde
