import Verif.Model.Float

/-!
# The non-recursive serializer `to_string_impl`

Models `src/json/ser.rs`.  The serializer only talks to the data structure through the traits `Serialize`, `ser::Seq`,
`ser::Map`.  As for deserialization, an implementation of these traits is arbitrary: references and boxes are opaque handles,
everything the implementation can observe or mutate is its world `σ`, and each method may return or panic.
-/

namespace Miniserde

/-- `src/ser/mod.rs:103-112` `enum Fragment`.  `u64`, `i64` values are modelled by `Nat`, `Int`; `Cow<str>` by its bytes. -/
inductive Frag (Q M : Type) where
  | null
  | bool (b : Bool)
  | str (s : Bytes)
  | u64 (n : Nat)
  | i64 (z : Int)
  | f64 (x : F64)
  | seq (q : Q)
  | map (m : M)

/-- An implementation of the traits of `src/ser/mod.rs:117-133`.
`S`, `Q`, `M` stand for `&dyn Serialize`, `Box<dyn Seq>`, `Box<dyn Map>`.  A result `none` in the first component is a panic.
Simplification: destructors do not panic. -/
structure SProto (σ : Type) where
  S : Type
  Q : Type
  M : Type
  begin : S → σ → Option (Frag Q M) × σ
  seqNext : Q → σ → Option (Option S) × σ
  mapNext : M → σ → Option (Option (Bytes × S)) × σ
  dropSeq : Q → σ → σ
  dropMap : M → σ → σ

/-! ## `escape_str` -/

/-- `src/json/ser.rs:191-211` `static ESCAPE: [u8; 256]`, with the constants of lines 181-188. -/
def SER_ESCAPE : List UInt8 :=
  let BB := b('b'); let TT := b('t'); let NN := b('n'); let FF := b('f'); let RR := b('r'); let QU := b('"')
  let BS := b('\\'); let U := b('u')
  --  1   2   3   4   5   6   7   8   9   A   B   C   D   E   F
  [ U,  U,  U,  U,  U,  U,  U,  U, BB, TT, NN,  U, FF, RR,  U,  U, -- 0
    U,  U,  U,  U,  U,  U,  U,  U,  U,  U,  U,  U,  U,  U,  U,  U, -- 1
    0,  0, QU,  0,  0,  0,  0,  0,  0,  0,  0,  0,  0,  0,  0,  0, -- 2
    0,  0,  0,  0,  0,  0,  0,  0,  0,  0,  0,  0,  0,  0,  0,  0, -- 3
    0,  0,  0,  0,  0,  0,  0,  0,  0,  0,  0,  0,  0,  0,  0,  0, -- 4
    0,  0,  0,  0,  0,  0,  0,  0,  0,  0,  0,  0, BS,  0,  0,  0, -- 5
    0,  0,  0,  0,  0,  0,  0,  0,  0,  0,  0,  0,  0,  0,  0,  0, -- 6
    0,  0,  0,  0,  0,  0,  0,  0,  0,  0,  0,  0,  0,  0,  0,  0, -- 7
    0,  0,  0,  0,  0,  0,  0,  0,  0,  0,  0,  0,  0,  0,  0,  0, -- 8
    0,  0,  0,  0,  0,  0,  0,  0,  0,  0,  0,  0,  0,  0,  0,  0, -- 9
    0,  0,  0,  0,  0,  0,  0,  0,  0,  0,  0,  0,  0,  0,  0,  0, -- A
    0,  0,  0,  0,  0,  0,  0,  0,  0,  0,  0,  0,  0,  0,  0,  0, -- B
    0,  0,  0,  0,  0,  0,  0,  0,  0,  0,  0,  0,  0,  0,  0,  0, -- C
    0,  0,  0,  0,  0,  0,  0,  0,  0,  0,  0,  0,  0,  0,  0,  0, -- D
    0,  0,  0,  0,  0,  0,  0,  0,  0,  0,  0,  0,  0,  0,  0,  0, -- E
    0,  0,  0,  0,  0,  0,  0,  0,  0,  0,  0,  0,  0,  0,  0,  0] -- F

/-- `src/json/ser.rs:163` `static HEX_DIGITS: [u8; 16] = *b"0123456789abcdef"`. -/
def HEX_DIGITS : List UInt8 := str! "0123456789abcdef"

/-- `str::is_char_boundary` of the standard library: at both ends, and before every byte that is not a continuation
byte `0b10xxxxxx`. Used by `src/json/ser.rs:151,175`. -/
def isCharBoundary (s : Bytes) (i : Nat) : Bool :=
  if i = s.length then true
  else match s[i]? with
    | some c => c < 0x80 || 0xC0 ≤ c
    | none => false

/-- `&value[start..end]` for `value: &str`: panics (`none`) when the range is reversed, out of bounds or not on character
boundaries. `src/json/ser.rs:151,175`. -/
def sliceStr (value : Bytes) (start stop : Nat) : Option Bytes :=
  if start ≤ stop ∧ stop ≤ value.length ∧ isCharBoundary value start = true ∧ isCharBoundary value stop = true then
    some ((value.drop start).take (stop - start))
  else none

/-- `src/json/ser.rs:154-169`: what is pushed for a byte whose table entry is `escape`; `none` is `unreachable!()` or an index out of
bounds. -/
def pushEscape (escape byte : UInt8) : Option Bytes :=
  if escape = b('b') then some (str! "\\b")
  else if escape = b('t') then some (str! "\\t")
  else if escape = b('n') then some (str! "\\n")
  else if escape = b('f') then some (str! "\\f")
  else if escape = b('r') then some (str! "\\r")
  else if escape = b('"') then some (str! "\\\"")
  else if escape = b('\\') then some (str! "\\\\")
  else if escape = b('u') then
    match HEX_DIGITS[(byte >>> 4).toNat]?, HEX_DIGITS[(byte &&& 0xF).toNat]? with
    | some h, some l => some (str! "\\u00" ++ [h, l])
    | _, _ => none
  else none

/-- `src/json/ser.rs:144-172`: the loop over the bytes; `rest` are the bytes from index `i` on.  Returns `start` and `out`. -/
def escapeLoop (value : Bytes) : Nat → Nat → Bytes → Bytes → Option (Nat × Bytes)
  | _, start, out, [] => some (start, out)
  | i, start, out, byte :: rest =>
    match SER_ESCAPE[byte.toNat]? with
    | none => none
    | some escape =>
      if escape = 0 then escapeLoop value (i + 1) start out rest
      else
        match (if start < i then (sliceStr value start i).map (out ++ ·) else some out) with
        | none => none
        | some out =>
          match pushEscape escape byte with
          | none => none
          | some e => escapeLoop value (i + 1) (i + 1) (out ++ e) rest

/-- `src/json/ser.rs:138-179` `fn escape_str`; `none` is a panic. -/
def escapeStr (value out : Bytes) : Option Bytes :=
  match escapeLoop value 0 0 (out ++ [b('"')]) value with
  | none => none
  | some (start, out) =>
    match (if start ≠ value.length then (sliceStr value start value.length).map (out ++ ·) else some out) with
    | none => none
    | some out => some (out ++ [b('"')])

/-! ## `itoa` -/

/-- The decimal digits of `n`, most significant first: the documented output of `itoa::Buffer::format` on an unsigned
integer.  (The crate itself is not modelled.). `src/json/ser.rs:63`. -/
def decimal (n : Nat) : Bytes :=
  if _h : n < 10 then [UInt8.ofNat (48 + n)] else decimal (n / 10) ++ [UInt8.ofNat (48 + n % 10)]
termination_by n

/-- `itoa::Buffer::format` on a signed integer. `src/json/ser.rs:64`. -/
def decimalInt (z : Int) : Bytes := if z < 0 then b('-') :: decimal z.natAbs else decimal z.natAbs

/-! ## The driver -/

section
variable {σ : Type}

/-- `src/json/ser.rs:39-42` `enum Layer`. -/
inductive SLayer (P : SProto σ) where
  | seq (q : P.Q)
  | map (m : P.M)

variable {P : SProto σ}

/-- Dropping a layer drops the box in it. `src/json/ser.rs:48,131`. -/
def SLayer.drop : SLayer P → σ → σ
  | .seq q, w => P.dropSeq q w
  | .map m, w => P.dropMap m w

/-- `src/json/ser.rs:44-51` `impl Drop for Serializer`: pop and drop until the stack is empty (top first). -/
def dropLayers : List (SLayer P) → σ → σ
  | [], w => w
  | l :: st, w => dropLayers st (l.drop w)

variable (P)

/-- State of the main loop `src/json/ser.rs:58-133` at its head: the local variables `out`, `serializer.stack` (top first) and
`fragment`. -/
structure SSt where
  out : Bytes
  stack : List (SLayer P)
  frag : Frag P.Q P.M
  w : σ

/-- Either the main loop goes on or `to_string_impl` has returned `out`, or panicked (`none`). `src/json/ser.rs:58-133`. -/
inductive SExit where
  | running (st : SSt P)
  | finished (out : Option Bytes) (w : σ)

variable {P}

/-- `fragment = s.begin()` with the given locals, lines 56, 78, 93, 108, 123; when `begin` panics, the serializer is dropped. `src/json/ser.rs:56,78,93,108,123`. -/
def beginWith (out : Bytes) (stack : List (SLayer P)) (s : P.S) (w : σ) : SExit P :=
  match P.begin s w with
  | (some f, w) => .running ⟨out, stack, f, w⟩
  | (none, w) => .finished none (dropLayers stack w)

/-- `src/json/ser.rs:101-132`: the inner loop.  A layer whose stream has ended is popped, otherwise its next item is begun. -/
def advance (out : Bytes) : List (SLayer P) → σ → SExit P
  | [], w => .finished (some out) w
  | .seq q :: stack, w =>
    match P.seqNext q w with
    | (some (some next), w) => beginWith (out ++ [b(',')]) (.seq q :: stack) next w
    | (some none, w) => advance (out ++ [b(']')]) stack (P.dropSeq q w)
    | (none, w) => .finished none (dropLayers (.seq q :: stack) w)
  | .map m :: stack, w =>
    match P.mapNext m w with
    | (some (some (key, next)), w) =>
      match escapeStr key (out ++ [b(',')]) with
      | some out => beginWith (out ++ [b(':')]) (.map m :: stack) next w
      | none => .finished none (dropLayers (.map m :: stack) w)
    | (some none, w) => advance (out ++ [b('}')]) stack (P.dropMap m w)
    | (none, w) => .finished none (dropLayers (.map m :: stack) w)

/-- `src/json/ser.rs:58-133`: one iteration of the main loop.  `ryu x` is what `ryu::Buffer::format_finite` returns (the crate
is not modelled).  When a call panics, the stream that was just opened (not on the stack yet) is dropped first, then the
serializer. -/
def stepS (ryu : F64 → Bytes) (st : SSt P) : SExit P :=
  match st.frag with
  | .null => advance (st.out ++ str! "null") st.stack st.w
  | .bool b => advance (st.out ++ (if b then str! "true" else str! "false")) st.stack st.w
  | .str s =>
    match escapeStr s st.out with
    | some out => advance out st.stack st.w
    | none => .finished none (dropLayers st.stack st.w)
  | .u64 n => advance (st.out ++ decimal n) st.stack st.w
  | .i64 z => advance (st.out ++ decimalInt z) st.stack st.w
  | .f64 x => advance (st.out ++ (if x.isFinite then ryu x else str! "null")) st.stack st.w
  | .seq q =>
    match P.seqNext q st.w with
    | (some (some first), w) => beginWith (st.out ++ [b('[')]) (.seq q :: st.stack) first w
    | (some none, w) => advance (st.out ++ [b('['), b(']')]) st.stack (P.dropSeq q w)
    | (none, w) => .finished none (dropLayers st.stack (P.dropSeq q w))
  | .map m =>
    match P.mapNext m st.w with
    | (some (some (key, first)), w) =>
      match escapeStr key (st.out ++ [b('{')]) with
      | some out => beginWith (out ++ [b(':')]) (.map m :: st.stack) first w
      | none => .finished none (dropLayers st.stack (P.dropMap m w))
    | (some none, w) => advance (st.out ++ [b('{'), b('}')]) st.stack (P.dropMap m w)
    | (none, w) => .finished none (dropLayers st.stack (P.dropMap m w))

/-- `src/json/ser.rs:58-133` again, with a function `mv` that is told whenever a box with a stream that goes on being used is moved:
from the fragment to the local variable (`Fragment::Seq(mut seq)`, line 72, `Fragment::Map(mut map)`, line 84) and from there to the stack (lines 77 and 92).  (A box that is popped off
the stack is dropped at once.) -/
def stepMv (mv : SLayer P → σ → σ) (ryu : F64 → Bytes) (st : SSt P) : SExit P :=
  match st.frag with
  | .seq q =>
    match P.seqNext q (mv (.seq q) st.w) with
    | (some (some first), w) => beginWith (st.out ++ [b('[')]) (.seq q :: st.stack) first (mv (.seq q) w)
    | (some none, w) => advance (st.out ++ [b('['), b(']')]) st.stack (P.dropSeq q w)
    | (none, w) => .finished none (dropLayers st.stack (P.dropSeq q w))
  | .map m =>
    match P.mapNext m (mv (.map m) st.w) with
    | (some (some (key, first)), w) =>
      match escapeStr key (st.out ++ [b('{')]) with
      | some out => beginWith (out ++ [b(':')]) (.map m :: st.stack) first (mv (.map m) w)
      | none => .finished none (dropLayers st.stack (P.dropMap m w))
    | (some none, w) => advance (st.out ++ [b('{'), b('}')]) st.stack (P.dropMap m w)
    | (none, w) => .finished none (dropLayers st.stack (P.dropMap m w))
  | _ => stepS ryu st

/-- Without a function to be told, it is the same loop. -/
theorem stepMv_none (ryu : F64 → Bytes) (st : SSt P) : stepMv (fun _ w => w) ryu st = stepS ryu st := by
  obtain ⟨out, stack, frag, w⟩ := st
  cases frag <;> rfl

/-- At most `n` iterations of the main loop, with moves. `src/json/ser.rs:58-133`. -/
def runMv (mv : SLayer P → σ → σ) (ryu : F64 → Bytes) : Nat → SExit P → SExit P
  | 0, x => x
  | n + 1, .running st => runMv mv ryu n (stepMv mv ryu st)
  | _ + 1, .finished o w => .finished o w

/-- At most `n` iterations of the main loop. `src/json/ser.rs:58-133`. -/
def runS (ryu : F64 → Bytes) : Nat → SExit P → SExit P
  | 0, x => x
  | n + 1, .running st => runS ryu n (stepS ryu st)
  | _ + 1, .finished o w => .finished o w

variable (P)

/-- `src/json/ser.rs:28-33, 53-134` `fn to_string`, `fn to_string_impl`: the state after at most `n` iterations of the main
loop. -/
def toStringN (ryu : F64 → Bytes) (n : Nat) (value : P.S) (w : σ) : SExit P :=
  runS ryu n (beginWith [] [] value w)

/-- The same, with moves. `src/json/ser.rs:53-134`. -/
def toStringMv (mv : SLayer P → σ → σ) (ryu : F64 → Bytes) (n : Nat) (value : P.S) (w : σ) : SExit P :=
  runMv mv ryu n (beginWith [] [] value w)

end

end Miniserde
