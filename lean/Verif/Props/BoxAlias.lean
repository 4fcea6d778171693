import Verif.Proof.BoxAlias

/-!
# C91: the unsafe code in the builder of `Box<T>` follows the aliasing rules
-/

namespace Miniserde.BoxAlias

open SB

/-- **C91.** Whatever the program does with builders of boxes, and whatever the user's impls for `T` do with the place they are lent, in methods and destructors, with `Ok`, `Err` or a panic: there is no
violation of Stacked Borrows at any byte of the place. -/
theorem C91_no_violation (prog : List BoxCall) : (World.run false prog).violated = false := by
  obtain ⟨h, hb⟩ := WInv.run prog
  unfold World.violated
  rw [h]
  split
  · rename_i b e
    exact (hb b e).held.ub
  · rfl

/-- **C91.** As long as the user's builder exists, it finds the place as if nobody else had a pointer to it: its borrow stack is as its own code made it. -/
theorem C91_undisturbed (prog : List BoxCall) (b : Bld) (h : (World.run false prog).bld = some b) (v : Loc) (hv : b.inner = some v) :
    ∃ base, b.loc.items = v.items ++ base ∧ b.loc.live = true ∧ v.live = true ∧ v.ub = false := by
  obtain ⟨hw, -, base, e, -⟩ := ((WInv.run prog).2 b h).inner v hv
  exact ⟨base, by rw [e]; rfl, by rw [e]; exact hw.live, hw.live, hw.ub⟩

/-- **C91.** The place is there as long as the builder is, and is freed when the builder is dropped (if that does not abort the process). -/
theorem C91_freed (prog : List BoxCall) (b : Bld) (h : (World.run false prog).bld = some b) (dacts vacts : List Acc) :
    b.loc.live = true ∧ (b.drop dacts false vacts).live = false ∧ (b.drop dacts false vacts).ub = false := by
  have hi := (WInv.run prog).2 b h
  refine ⟨hi.held.live, ?_, hi.drop dacts false vacts⟩
  exact free_live _ _ (hi.drop dacts false vacts)

/-- **C91.** If the user's code that makes the builder returns `Err` or panics, then the place is freed at once, whatever the destructor of `T` does; otherwise it is there. -/
theorem C91_start (acts : List Acc) (res : Res) (vacts : List Acc) :
    (∃ l, start false acts res vacts = .inl l ∧ res ≠ .ok ∧ l.live = false ∧ l.ub = false) ∨ ∃ b, start false acts res vacts = .inr b ∧ res = .ok ∧ b.loc.live = true ∧ b.loc.ub = false := by
  have hres : (start false acts res vacts).isRight = (res == .ok) := by cases res <;> rfl
  rcases start_ok acts res vacts with ⟨l, e, h1, h2⟩ | ⟨b, e, hi⟩
  · exact .inl ⟨l, e, (by intro h; subst h; rw [e] at hres; simp at hres), h2, h1⟩
  · refine .inr ⟨b, e, ?_, hi.held.live, hi.held.ub⟩
    rw [e] at hres
    revert hres
    cases res <;> simp

/-! ## Concrete cases -/

example : ∃ l, start false [.read 5] .panic [] = .inl l ∧ l.live = false := ⟨_, rfl, by decide +kernel⟩

/-- An impl that keeps a reference in its builder (tag 12, from its argument 11), writes through it in every call and in its destructor; in between, a visitor reborrows it. -/
def exProg : List BoxCall :=
  [.start [.reborrow .unique 11 false] .ok [], .child [.write 12, .reborrow .unique 12 true, .write 13], .finish [.write 12] .ok [.read 12, .write 12] false, .drop [] false []]

/-- All these accesses do happen: before the drop, the stack has the entries of the library's pointer (tag 4) and of the reborrows for `take`. -/
example : (World.run false (exProg.take 2)).bld.map (fun b => (b.loc.items.map Item.tag, b.inner.map fun v => v.items.map Item.tag)) =
    some ([13, 12, 11, 10, 9, 8, 7, 6, 5, 4, 3, 2, 1, 0], some [13, 12, 11]) := by decide +kernel
example : (World.run false (exProg.take 3)).bld.map (fun b => (b.loc.items.map Item.tag, b.inner)) =
    some ([19, 18, 17, 16, 15, 14, 4, 3, 2, 1, 0], none) := by decide +kernel
example : World.run false exProg = ⟨none, false⟩ := by decide +kernel

/-- With a plain `Box` in place of `NonuniqueBox`, moving the builder invalidates the reference of the user's builder. -/
example : (World.run true exProg).violated = true := by decide +kernel

/-- Taking the value out before the user's builder is dropped: its destructor uses an invalid reference. -/
example : (World.run false (exProg.take 2)).bld.map (fun b => ({ b with loc := take b.ptr b.loc }.user [.write 12]).loc.ub) = some true := by decide +kernel

/-- So does freeing the place first. -/
example : (World.run false (exProg.take 2)).bld.map (fun b => ({ b with loc := dropBox [] b.ptr b.loc }.user [.write 12]).loc.ub) = some true := by decide +kernel

/-- Popping a protected entry is a violation: the library's pointer used while the user's function runs. -/
example : (((lend 0 Loc.fresh).1).act (.write 0)).ub = true ∧ ((((lend 0 Loc.fresh).1).act .leave).act (.write 0)).ub = false := by decide +kernel

end Miniserde.BoxAlias
