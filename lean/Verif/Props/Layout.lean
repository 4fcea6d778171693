import Verif.Model.Layout

/-!
# C77: pointer casts keep to the memory they were given
-/

namespace Miniserde

theorem padTo_dvd {offset align : Nat} (h : align ∣ offset) : padTo offset align = offset := by
  unfold padTo
  rw [if_pos (Nat.mod_eq_zero_of_dvd h), Nat.add_zero]

/-- **C77.** A `repr(C)` struct with the one field `out: Option<T>` can be put on top of any `Option<T>`: the pointer is aligned, the struct covers the
same bytes, and its field is that `Option<T>` (whatever layout the compiler chose for `Option<T>`). -/
theorem C77_place (opt : Lay) (h : opt.Ok) (addr : Nat) (ha : opt.aligned addr) :
    (reprC [opt]).1.aligned addr ∧ (∀ a, (reprC [opt]).1.bytes addr a ↔ opt.bytes addr a) ∧ (reprC [opt]).2 = [0] ∧
      ∀ off ∈ (reprC [opt]).2, opt.aligned (addr + off) ∧ ∀ a, opt.bytes (addr + off) a ↔ opt.bytes addr a := by
  obtain ⟨⟨k, hk⟩, hd⟩ := h
  have h1 : maxAlign [opt] = opt.align := by
    simp only [maxAlign]
    have : 1 ≤ opt.align := by rw [hk]; exact Nat.one_le_two_pow
    omega
  have h0 : padTo 0 opt.align = 0 := padTo_dvd (Nat.dvd_zero _)
  have e : reprC [opt] = (opt, [0]) := by
    unfold reprC
    rw [h1]
    simp only [fieldOffsets, h0, Nat.zero_add]
    rw [padTo_dvd hd]
  rw [e]
  refine ⟨ha, fun _ => Iff.rfl, rfl, fun off ho => ?_⟩
  rw [List.mem_singleton.1 ho]
  exact ⟨ha, fun _ => Iff.rfl⟩

/-- **C77.** `[MaybeUninit<T>; N]` can be read as `[T; N]`: aligned, the same bytes, and the slot `i` is the element `i`; different slots do not overlap. -/
theorem C77_array (t : Lay) (h : t.Ok) (n addr : Nat) (ha : (arrayLay (maybeUninit t) n).1.aligned addr) :
    (arrayLay t n).1.aligned addr ∧ (∀ a, (arrayLay (maybeUninit t) n).1.bytes addr a ↔ (arrayLay t n).1.bytes addr a) ∧
    (∀ i, i < n → t.aligned (addr + (arrayLay t n).2 i) ∧
      (∀ a, (maybeUninit t).bytes (addr + (arrayLay (maybeUninit t) n).2 i) a ↔ t.bytes (addr + (arrayLay t n).2 i) a) ∧
      ∀ a, t.bytes (addr + (arrayLay t n).2 i) a → (arrayLay t n).1.bytes addr a) ∧
    ∀ i j a, i < j → t.bytes (addr + (arrayLay t n).2 i) a → ¬ t.bytes (addr + (arrayLay t n).2 j) a := by
  refine ⟨ha, fun _ => Iff.rfl, fun i hi => ⟨?_, fun _ => Iff.rfl, fun a => ?_⟩, fun i j a hij => ?_⟩
  · exact Nat.dvd_add ha (Nat.dvd_trans h.2 (Nat.dvd_mul_left _ _))
  · simp only [Lay.bytes, arrayLay]
    have : (i + 1) * t.size ≤ n * t.size := Nat.mul_le_mul_right _ hi
    rw [Nat.add_mul] at this
    omega
  · simp only [Lay.bytes, arrayLay]
    have : (i + 1) * t.size ≤ j * t.size := Nat.mul_le_mul_right _ hij
    rw [Nat.add_mul] at this
    omega

/-- **C77.** The shared `static mut IGNORE` has no bytes, so the mutable references to it that are handed out never overlap anything. -/
theorem C77_ignore (addr : Nat) : ignoreLay.Ok ∧ ignoreLay.aligned addr ∧ ∀ a, ¬ ignoreLay.bytes addr a :=
  ⟨⟨⟨0, rfl⟩, ⟨0, rfl⟩⟩, ⟨addr, by simp [ignoreLay]⟩, fun a h => by simp only [Lay.bytes, ignoreLay] at h; omega⟩

/-- `Option<u64>` on a usual 64-bit target, and why `repr(C)` with a second field would not do. -/
example : (⟨16, 8⟩ : Lay).Ok ∧ reprC [⟨16, 8⟩] = (⟨16, 8⟩, [0]) ∧ reprC [⟨1, 1⟩, ⟨16, 8⟩] = (⟨24, 8⟩, [0, 8]) :=
  ⟨⟨⟨3, rfl⟩, ⟨2, rfl⟩⟩, by decide, by decide⟩

end Miniserde
