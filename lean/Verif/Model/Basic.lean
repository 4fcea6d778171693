/-!
# Outcomes, bytes and machine integers

Common vocabulary of the model.  Simplifications are stated at each definition.
-/

namespace Miniserde

/-- Outcome of a Rust computation.
* `ok a`  — normal return (`Ok(a)` for functions returning `miniserde::Result`);
* `err`   — `Err(miniserde::Error)` (`src/error.rs:7-8`; the error carries no data);
* `panic` — any Rust panic: index/slice out of range, `unwrap` of `None`, arithmetic overflow in a
  build with overflow checks, `unreachable!()`. -/
inductive Res (α : Type u) where
  | ok (a : α)
  | err
  | panic
  deriving Repr, DecidableEq

namespace Res

/-- Rust's `?`: continue on `Ok`, otherwise return the failure. Used for every `?`, e.g. `src/json/de.rs:35,72-98,157,167-168`. -/
@[inline] def bind (x : Res α) (f : α → Res β) : Res β :=
  match x with
  | ok a => f a
  | err => err
  | panic => panic

/-- `Result::map`. `.map(Float)`, `.map(Str)`: `src/json/de.rs:428,472-473,604`. -/
@[inline] def map (f : α → β) (x : Res α) : Res β := x.bind (fun a => ok (f a))

/-- `?` as in `bind` (`src/json/de.rs:35`). -/
instance : Monad Res where
  pure := ok
  bind := bind

@[simp] theorem pure_def (a : α) : (pure a : Res α) = ok a := rfl
@[simp] theorem bind_ok (a : α) (f : α → Res β) : (ok a >>= f) = f a := rfl
@[simp] theorem bind_err (f : α → Res β) : ((err : Res α) >>= f) = err := rfl
@[simp] theorem bind_panic (f : α → Res β) : ((panic : Res α) >>= f) = panic := rfl
@[simp] theorem bind_ok' (a : α) (f : α → Res β) : (ok a).bind f = f a := rfl
@[simp] theorem bind_err' (f : α → Res β) : (err : Res α).bind f = err := rfl
@[simp] theorem bind_panic' (f : α → Res β) : (panic : Res α).bind f = panic := rfl
@[simp] theorem map_ok (f : α → β) (a : α) : (ok a).map f = ok (f a) := rfl
@[simp] theorem map_err (f : α → β) : (err : Res α).map f = err := rfl
@[simp] theorem map_panic (f : α → β) : (panic : Res α).map f = panic := rfl

theorem bind_eq_ok {x : Res α} {f : α → Res β} {b : β} :
    (x >>= f) = ok b ↔ ∃ a, x = ok a ∧ f a = ok b := by
  cases x <;> simp [Bind.bind, bind]

theorem bind_eq_ok' {x : Res α} {f : α → Res β} {b : β} :
    x.bind f = ok b ↔ ∃ a, x = ok a ∧ f a = ok b := by
  cases x <;> simp [bind]

/-- A failure seen at another type.  Only used on failures; `ok` is mapped to `panic`. The `Err` branch of `?`, `src/json/de.rs:72`. -/
def fail : Res α → Res β
  | err => err
  | _ => panic

@[simp] theorem fail_err : (err : Res α).fail = (err : Res β) := rfl
@[simp] theorem fail_panic : (panic : Res α).fail = (panic : Res β) := rfl

/-- Did the computation return normally? `Ok` of `Result`, `src/error.rs:1-20`. -/
def isOk : Res α → Bool
  | ok _ => true
  | _ => false

end Res

/-- A Rust `&[u8]` / the bytes of a `&str` or `String`. `src/json/de.rs:40` (`input`), `:42` (`buffer`), `src/json/ser.rs:54` (`out`). -/
abbrev Bytes := List UInt8

/-- `b('x')` is Rust's byte literal `b'x'`. -/
macro "b(" c:char ")" : term => return Lean.Syntax.mkNumLit (toString c.getChar.toNat)

/-- `str! "abc"` is the byte list of an ASCII string literal (Rust `b"abc"`). -/
macro "str!" s:str : term => do
  let xs : Array (Lean.TSyntax `term) :=
    (s.getString.toList.map fun c => ⟨Lean.Syntax.mkNumLit (toString c.toNat)⟩).toArray
  `(([$xs,*] : Bytes))

/-- `u64::MAX`. `src/json/de.rs:421,505`. -/
abbrev U64_MAX : Nat := 18446744073709551615
/-- `i32::MAX`. `src/json/de.rs:560`. -/
abbrev I32_MAX : Int := 2147483647
/-- `i32::MIN`. Range of `exponent: i32`, `src/json/de.rs:447,495,629`. -/
abbrev I32_MIN : Int := -2147483648
/-- `i64::MIN`. `src/json/de.rs:478`. -/
abbrev I64_MIN : Int := -9223372036854775808
/-- `i64::MAX`. `src/de/impls.rs:80`. -/
abbrev I64_MAX : Int := 9223372036854775807

/-- Result of a `u64` operation whose mathematical result is `n`: panics when it does not fit
(Rust debug semantics; a release build would wrap).  `u64` values are modelled by `Nat`. `src/json/de.rs:431,514`. -/
def u64 (n : Nat) : Res Nat := if n ≤ U64_MAX then .ok n else .panic

/-- Result of an `i32` operation whose mathematical result is `z`, panicking on overflow.
`i32` values are modelled by `Int`. `src/json/de.rs:455,515,564,652`. -/
def i32 (z : Int) : Res Int := if I32_MIN ≤ z ∧ z ≤ I32_MAX then .ok z else .panic

/-- Result of a `u16` operation whose mathematical result is `n`, panicking on overflow. `src/json/de.rs:356-362`. -/
def u16 (n : Nat) : Res Nat := if n < 65536 then .ok n else .panic

/-- `i32::saturating_add` / `saturating_sub` on a mathematical result `z`. `src/json/de.rs:568,570`. -/
def satI32 (z : Int) : Int := if z < I32_MIN then I32_MIN else if I32_MAX < z then I32_MAX else z

/-- `n as i64` for `n : u64`: two's complement reinterpretation. `src/json/de.rs:478`. -/
def asI64 (n : Nat) : Int := if n < 9223372036854775808 then (n : Int) else (n : Int) - 18446744073709551616

/-- `i64::wrapping_neg`. `src/json/de.rs:478`. -/
def wrappingNegI64 (z : Int) : Int := if z = I64_MIN then I64_MIN else -z

/-- The byte pattern `b'0'..=b'9'`. `src/json/de.rs:405,414,451,500,508,550,556,591,605`. -/
def isDigit (c : UInt8) : Bool := 48 ≤ c && c ≤ 57

/-- `u64::from(c - b'0')`; only used on digits. `src/json/de.rs:410,416,502,550,558`. -/
def digitVal (c : UInt8) : Nat := c.toNat - 48

end Miniserde
