import Verif.Proof.PanicMem
import Verif.Spec.PanicMem

/-!
# C70: the unsafe builders of `[T; N]` and `Box<T>` when user code panics

Any program of a caller that drives the builder by hand: calls in any order, values put into and taken out of the places, failing and panicking calls that are caught, dropping the builder at any time
or forgetting it.  Values are numbered `0, 1, …, next - 1` in order of creation.
-/

namespace Miniserde

/-- **C70** (arrays). No undefined behaviour, and every value ever made is in exactly one place: owned by somebody, destroyed, or leaked — never destroyed twice, never owned twice, never owned after it was destroyed.
The array that `finish` leaves in the place is fully initialised. -/
theorem C70_array (bomb : Nat → Bool) (N : Nat) (prog : List ArrOp) :
    let m := ArrMem.run bomb N prog
    m.fate.ub = false ∧ (m.held ++ m.fate.dropped ++ m.fate.leaked).Perm (List.range m.next) ∧ ∀ ls, m.out = some ls → ls.length = N := by
  have h : (ArrMem.run bomb N prog).Inv N := ArrMem.Inv.foldl prog (ArrMem.Inv.init N)
  refine ⟨h.ub, perm_range fun a => ?_, h.size⟩
  have := h.places a
  simp only [List.count_append, Fate.gone] at this ⊢
  omega

/-- **C70** (arrays). Nothing is destroyed twice, nothing that somebody owns has been destroyed. -/
theorem C70_array_once (bomb : Nat → Bool) (N : Nat) (prog : List ArrOp) :
    let m := ArrMem.run bomb N prog
    m.fate.dropped.Nodup ∧ m.held.Nodup ∧ ∀ l ∈ m.held, l ∉ m.fate.dropped := by
  have h := (C70_array bomb N prog).2.1
  have hn := h.nodup_iff.2 List.nodup_range
  rw [List.nodup_append] at hn
  have hn := List.nodup_append.1 hn.1
  exact ⟨hn.2.1, hn.1, fun l hl hd => hn.2.2 l hl l hd rfl⟩

/-- **C70** (arrays). Nothing is leaked unless a destructor panics or the caller forgets the builder. -/
theorem C70_array_no_leak (bomb : Nat → Bool) (hb : ∀ l, bomb l = false) (N : Nat) (prog : List ArrOp) (hf : .forget ∉ prog) :
    (ArrMem.run bomb N prog).fate.leaked = [] :=
  ArrMem.foldl_calm hb prog (ArrMem.Inv.init N) hf

/-- **C70** (boxes). The same for `Box<T>`.  Here misuse is also: the inner builder is called after it was destroyed, uses its place after the place was freed, or outlives it.
The inner builder is destroyed exactly once. -/
theorem C70_box (bomb : Nat → Bool) (prog : List BoxOp) :
    let m := BoxMem.run bomb prog
    m.fate.ub = false ∧ (m.held ++ m.fate.dropped ++ m.fate.leaked).Perm (List.range m.next) ∧ m.made = m.drops + m.lost + m.open := by
  have h : (BoxMem.run bomb prog).Inv := BoxMem.Inv.foldl prog BoxMem.Inv.init
  refine ⟨h.ub, perm_range fun a => ?_, h.inner⟩
  have := h.places a
  simp only [List.count_append, Fate.gone] at this ⊢
  omega

/-- **C70** (boxes). Nothing is destroyed twice, nothing that somebody owns has been destroyed. -/
theorem C70_box_once (bomb : Nat → Bool) (prog : List BoxOp) :
    let m := BoxMem.run bomb prog
    m.fate.dropped.Nodup ∧ m.held.Nodup ∧ ∀ l ∈ m.held, l ∉ m.fate.dropped := by
  have h := (C70_box bomb prog).2.1
  have hn := h.nodup_iff.2 List.nodup_range
  rw [List.nodup_append] at hn
  have hn := List.nodup_append.1 hn.1
  exact ⟨hn.2.1, hn.1, fun l hl hd => hn.2.2 l hl l hd rfl⟩

/-- **C70** (boxes). Nothing is leaked unless a destructor of a value panics, the process is aborted, or the caller forgets the builder — whatever the inner builder does, its destructor's panics included. -/
theorem C70_box_no_leak (bomb : Nat → Bool) (hb : ∀ l, bomb l = false) (prog : List BoxOp) (hf : .forget ∉ prog)
    (hd : (BoxMem.run bomb prog).dead = false) : (BoxMem.run bomb prog).fate.leaked = [] :=
  BoxMem.foldl_calm hb prog BoxMem.Inv.init hf hd

/-! ## Concrete cases -/

/-- Two values are deserialized into `[T; 2]`. -/
def exArrFill : List ArrOp := [.new, .new, .start, .element, .setElement 0, .element, .setElement 1, .finish, .dropBuilder false]

example : ArrMem.run (fun _ => false) 2 exArrFill = ⟨some [0, 1], none, [], ⟨[], [], false⟩, 2, false⟩ := by decide +kernel

/-- The second time, the destructor of a value in the old array (number 1) panics in `finish`: the old array is gone, the place empty, and the new values are destroyed with the builder. -/
example : ArrMem.run (· == 1) 2 (exArrFill ++ [.new, .new, .start, .element, .setElement 2, .element, .setElement 3, .finish, .dropBuilder false]) =
    ⟨none, none, [], ⟨[3, 2, 1, 0], [], false⟩, 4, false⟩ := by decide +kernel

/-- Without panics it is replaced. -/
example : ArrMem.run (fun _ => false) 2 (exArrFill ++ [.new, .new, .start, .element, .setElement 2, .element, .setElement 3, .finish, .dropBuilder false]) =
    ⟨some [2, 3], none, [], ⟨[1, 0], [], false⟩, 4, false⟩ := by decide +kernel

/-- The builder is dropped half way; the destructor of value 0 panics: value 1 is leaked (the loop is left), the current element 2 is destroyed. -/
example : ArrMem.run (· == 0) 4 [.new, .new, .new, .start, .element, .setElement 0, .element, .setElement 1, .element, .setElement 2, .dropBuilder false] =
    ⟨none, none, [], ⟨[2, 0], [1], false⟩, 3, false⟩ := by decide +kernel

/-- One element too many is destroyed. -/
example : ArrMem.run (fun _ => false) 1 [.new, .new, .start, .element, .setElement 0, .element, .setElement 1, .finish, .dropBuilder false] =
    ⟨none, none, [], ⟨[0, 1], [], false⟩, 2, false⟩ := by decide +kernel

/-- A box is filled by an inner builder that writes to its place in `finish`. -/
example : BoxMem.run (fun _ => false) [.new, .start [] .ok, .child [] .ok, .finish [.set 0] .ok [] false, .dropBuilder false [] false] =
    ⟨some 0, none, [], ⟨[], [], false⟩, 1, false, 1, 1, 0⟩ := by decide +kernel

/-- The destructor of the inner builder panics in the middle of `finish`, when the value is already in the place: the builder's own destructor later destroys the value once, and not the inner builder again. -/
example : BoxMem.run (fun _ => false) [.new, .start [] .ok, .finish [.set 0] .ok [] true, .dropBuilder false [] true] =
    ⟨none, none, [], ⟨[0], [], false⟩, 1, false, 1, 1, 0⟩ := by decide +kernel

/-- The inner builder's destructor uses its place: it is still there. -/
example : BoxMem.run (fun _ => false) [.new, .new, .start [.set 0] .ok, .dropBuilder false [.set 1] false] =
    ⟨none, none, [], ⟨[1, 0], [], false⟩, 2, false, 1, 1, 0⟩ := by decide +kernel

end Miniserde
