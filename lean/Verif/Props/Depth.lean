import Verif.Proof.Depth
import Verif.Props.Compose

/-!
# The call depth does not depend on the input
-/

namespace Miniserde

/-- **C52.** `from_str` never makes more than `B + 1` nested trait calls, where `B` is the largest number of `Box` and `Option` wrappers directly
around a type in the program (`Spec/Depth.lean`): with that limit, beyond which a call fails, it gives the same result, and leaves the same memory, on
every input.  `B` depends on the types only, also when they are recursive. -/
theorem C52_from_str (E : Env) (B : Nat) (hE : ∀ i, ∀ f ∈ E.fields i, f.2.maxWraps ≤ B) (t : Ty) (ht : t.maxWraps ≤ B) (j : Bytes) :
    fromStrL E (B + 1) t j = fromStr E t j :=
  fromStrL_eq E hE ht j

/-- **C52**, for `Value`: reading nested arrays and objects needs no nested call at all. -/
theorem C52_value (E : Env) (hE : ∀ i, ∀ f ∈ E.fields i, f.2.maxWraps ≤ 0) (j : Bytes) : fromStrL E 1 .value j = fromStr E .value j :=
  fromStrL_eq E (t := .value) hE (Nat.le_refl 0) j

/-- **C53.** `to_string` never makes more than `B + 1` nested `begin` calls: with that limit, it returns the same text, or panics likewise, and leaves the
same memory, for every value and after any number of iterations of its loop. -/
theorem C53_to_string (E : Env) (order : Nat → List (Bytes × Val) → List (Bytes × Val)) (ryu : F64 → Bytes) (B : Nat)
    (hE : ∀ i, ∀ f ∈ E.fields i, f.2.maxWraps ≤ B) (t : Ty) (ht : t.maxWraps ≤ B) (v : Val) (n : Nat) (o : Option Bytes) (h : SHeap) :
    toStringN (serLibL E order (B + 1)) ryu n (t, v) SHeap.empty = .finished o h ↔ toStringN (serLib E order) ryu n (t, v) SHeap.empty = .finished o h :=
  toStringNL_finished order hE ryu n ht v o h

/-- **C53**, the text. -/
theorem C53_text (E : Env) (order : Nat → List (Bytes × Val) → List (Bytes × Val)) (ryu : F64 → Bytes) (B : Nat)
    (hE : ∀ i, ∀ f ∈ E.fields i, f.2.maxWraps ≤ B) (t : Ty) (ht : t.maxWraps ≤ B) (v : Val) (o : Bytes) :
    PrintsAsL E order ryu (B + 1) t v o ↔ PrintsAs E order ryu t v o :=
  ⟨fun ⟨h, n, e⟩ => ⟨h, n, (C53_to_string E order ryu B hE t ht v n _ h).1 e⟩, fun ⟨h, n, e⟩ => ⟨h, n, (C53_to_string E order ryu B hE t ht v n _ h).2 e⟩⟩

/-! ## Examples -/

/-- The recursive `struct List { x: i32, tag: Option<String>, next: Option<Box<List>> }`: three nested calls, however long the list. -/
theorem exEnv_wraps : ∀ i, ∀ f ∈ exEnv.fields i, f.2.maxWraps ≤ 2 := by
  intro i
  match i with
  | 0 => decide
  | _ + 1 => intro f hf; cases hf

example (j : Bytes) : fromStrL exEnv 3 (.strct 0) j = fromStr exEnv (.strct 0) j := C52_from_str exEnv 2 exEnv_wraps (.strct 0) (by decide) j

/-- Did the call panic? -/
def panics : Option (Res Val × Heap) → Bool
  | some (.panic, _) => true
  | _ => false

/-- Did the call return a value? -/
def returns : Option (Res Val × Heap) → Bool
  | some (.ok _, _) => true
  | _ => false

/-- With two, a list of length two does not fit: the limit is not too large. -/
example : panics (fromStrL exEnv 2 (.strct 0) (str! "{\"next\":{\"x\":1},\"x\":1}")) = true := by decide +kernel
example : returns (fromStrL exEnv 3 (.strct 0) (str! "{\"next\":{\"x\":1},\"x\":1}")) = true := by decide +kernel

/-- Likewise for `to_string`. -/
example (v : Val) (o : Bytes) : PrintsAsL exEnv exOrder (fun x => (exLit x).text) 3 (.strct 0) v o ↔
    PrintsAs exEnv exOrder (fun x => (exLit x).text) (.strct 0) v o := C53_text exEnv exOrder _ 2 exEnv_wraps (.strct 0) (by decide) v o

example (ryu : F64 → Bytes) : ∃ h, toStringN (serLibL exEnv exOrder 2) ryu 20 (.strct 0, .strct [.int 1, .optNone, .optSome (.box (.strct [.int 1, .optNone, .optNone]))])
    SHeap.empty = .finished none h := ⟨_, rfl⟩

end Miniserde
