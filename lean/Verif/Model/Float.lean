import Verif.Model.Basic

/-!
# IEEE-754 binary64 / binary32 arithmetic

Rust's `f64`/`f32` operators used by the library (`*`, `/`, unary `-`, `as`, `is_infinite`, `is_finite`,
`== 0.0`) are primitive in Rust.  They are modelled in software: a finite number is
`(-1)^neg * man * 2^exp`, results are rounded to nearest, ties to even, with gradual underflow
and overflow to infinity, as IEEE-754 and the Rust reference prescribe.
NaN payloads are not modelled.
-/

namespace Miniserde

/-- A binary interchange format: precision and the range of the exponent of the integer mantissa. The types `f64`, `f32` of `src/json/de.rs:192`, `src/de/impls.rs:156-157`. -/
structure Fmt where
  prec : Nat
  emin : Int
  emax : Int
  deriving DecidableEq, Repr

/-- `f64`: 53-bit mantissa, `exp ∈ [-1074, 971]`. `src/json/de.rs:192,629-657`. -/
def binary64 : Fmt := ⟨53, -1074, 971⟩
/-- `f32`: 24-bit mantissa, `exp ∈ [-149, 104]`. `src/de/impls.rs:156`, `src/ser/impls.rs:78`. -/
def binary32 : Fmt := ⟨24, -149, 104⟩

/-- A floating-point datum. `src/json/de.rs:192`. -/
inductive Flt where
  | nan
  | inf (neg : Bool)
  | fin (neg : Bool) (man : Nat) (exp : Int)
  deriving DecidableEq, Repr

/-- `f64` values (in the `binary64` format). `src/json/de.rs:192`, `src/de/mod.rs:258`. -/
abbrev F64 := Flt
/-- `f32` values (in the `binary32` format). `src/de/impls.rs:156`, `src/ser/impls.rs:78`. -/
abbrev F32 := Flt

namespace Flt

/-- `⌊log₂ (n/d)⌋` for `n, d > 0`. Part of the rounding in `src/json/de.rs:630,635,640,651`. -/
def ilog2 (n d : Nat) : Int :=
  let k : Int := (Nat.log2 n : Int) - (Nat.log2 d : Int)
  if n * 2 ^ (-k).toNat < d * 2 ^ k.toNat then k - 1 else k

/-- `n/d` rounded to an integer, ties to even (`d > 0`). Part of the rounding in `src/json/de.rs:630,635,640,651`. -/
def roundDiv (n d : Nat) : Nat :=
  let q := n / d
  let r := n % d
  if 2 * r < d then q
  else if d < 2 * r then q + 1
  else if q % 2 = 0 then q else q + 1

/-- The rational `±n/d` (`d > 0`) rounded to the format, nearest-even. The rounding in `src/json/de.rs:630,635,640,651`. -/
def round (f : Fmt) (neg : Bool) (n d : Nat) : Flt :=
  if n = 0 then .fin neg 0 f.emin
  else
    let e := max f.emin (ilog2 n d - ((f.prec : Int) - 1))
    let m := roundDiv (n * 2 ^ (-e).toNat) (d * 2 ^ e.toNat)
    let (m, e) := if m = 2 ^ f.prec then (2 ^ (f.prec - 1), e + 1) else (m, e)
    if f.emax < e then .inf neg else .fin neg m e

/-- `n as f64` / `n as f32` for an integer (rounds to nearest-even). `src/de/impls.rs:136`. -/
def ofInt (f : Fmt) (z : Int) : Flt := round f (decide (z < 0)) z.natAbs 1

/-- `n as f64` / `n as f32` for `n : u64`. `src/json/de.rs:482,630`, `src/de/impls.rs:141`. -/
def ofNat (f : Fmt) (n : Nat) : Flt := round f false n 1

/-- Unary minus. `src/json/de.rs:482,656`. -/
def neg : Flt → Flt
  | nan => nan
  | inf s => inf (!s)
  | fin s m e => fin (!s) m e

/-- `x * y`. `src/json/de.rs:635`. -/
def mul (f : Fmt) : Flt → Flt → Flt
  | nan, _ => nan
  | _, nan => nan
  | inf s, inf t => inf (s != t)
  | inf s, fin t m _ => if m = 0 then nan else inf (s != t)
  | fin s m _, inf t => if m = 0 then nan else inf (s != t)
  | fin s m e, fin t m' e' =>
    round f (s != t) (m * m' * 2 ^ (e + e').toNat) (2 ^ (-(e + e')).toNat)

/-- `x / y`. `src/json/de.rs:640,651`. -/
def div (f : Fmt) : Flt → Flt → Flt
  | nan, _ => nan
  | _, nan => nan
  | inf _, inf _ => nan
  | inf s, fin t _ _ => inf (s != t)
  | fin s _ _, inf t => fin (s != t) 0 f.emin
  | fin s m e, fin t m' e' =>
    if m' = 0 then (if m = 0 then nan else inf (s != t))
    else round f (s != t) (m * 2 ^ (e - e').toNat) (m' * 2 ^ (-(e - e')).toNat)

/-- `x as f32` / `x as f64` (rounding conversion between formats). `src/de/impls.rs:146`, `src/ser/impls.rs:73`. -/
def cast (f : Fmt) : Flt → Flt
  | nan => nan
  | inf s => inf s
  | fin s m e => round f s (m * 2 ^ e.toNat) (2 ^ (-e).toNat)

/-- `f64::is_infinite`. `src/json/de.rs:636`. -/
def isInfinite : Flt → Bool
  | inf _ => true
  | _ => false

/-- `f64::is_finite`. `src/json/ser.rs:66`. -/
def isFinite : Flt → Bool
  | fin .. => true
  | _ => false

/-- `x == 0.0`. `src/json/de.rs:645`. -/
def isZero : Flt → Bool
  | fin _ m _ => m == 0
  | _ => false

/-- The decimal literal `1eK` as an `f64`: rustc rounds literals to nearest-even. `src/json/de.rs:651,661-693`. -/
def pow10Lit (k : Nat) : F64 := round binary64 false (10 ^ k) 1

end Flt

end Miniserde
