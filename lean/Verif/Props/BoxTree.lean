import Verif.Proof.BoxTree

/-!
# C93: the unsafe code in the builder of `Box<T>` follows Tree Borrows
-/

namespace Miniserde.BoxTree

open TB

/-- **C93.** Whatever the program does with builders of boxes, and whatever the user's impls for `T` do with the place they are lent, in methods and destructors, with `Ok`, `Err` or a panic: there is no
violation of Tree Borrows at any byte of the place, be it in an `UnsafeCell` or not. -/
theorem C93_box_no_violation (prog : List BoxCall) : (World.run false prog).violated = false := by
  obtain ⟨h, hb⟩ := WInv.run prog
  unfold World.violated
  rw [h]
  split
  · rename_i b e
    exact (hb b e).held.op.ub
  · rfl

/-- **C93.** As long as the user's builder exists, it finds the place as if nobody else had a pointer to it: what was borrowed from its argument `ρ` is in the state that its own code made. -/
theorem C93_box_undisturbed (prog : List BoxCall) (b : Bld) (h : (World.run false prog).bld = some b) (v : Loc) (hv : b.inner = some v) :
    ∃ ρ : Tag, v.items = b.loc.items.filter (fun i => ρ.isSuffixOf i.tag) ∧ b.loc.live = true ∧ v.live = true ∧ v.ub = false ∧ b.loc.calls = [] ∧ v.calls = [] := by
  obtain ⟨ρ, o, hc⟩ := ((WInv.run prog).2 b h).inner v hv
  have e := o.view
  exact ⟨ρ, by rw [e]; rfl, o.live, by rw [e]; exact o.live, by rw [e]; exact o.ub, by rw [← hc, e], hc⟩

/-- **C93.** The place is there as long as the builder is, and is freed when the builder is dropped (if that does not abort the process). -/
theorem C93_box_freed (prog : List BoxCall) (b : Bld) (h : (World.run false prog).bld = some b) (dacts vacts : List Acc) :
    b.loc.live = true ∧ (b.drop dacts false vacts).live = false ∧ (b.drop dacts false vacts).ub = false := by
  have hi := (WInv.run prog).2 b h
  have h1 := dropBox_ok (hi.user dacts).1.held vacts
  exact ⟨hi.held.op.live, h1.2, h1.1⟩

/-- **C93.** If the user's code that makes the builder returns `Err` or panics, then the place is freed at once, whatever the destructor of `T` does; otherwise it is there. -/
theorem C93_box_start (im : Bool) (acts : List Acc) (res : Res) (vacts : List Acc) :
    (∃ l, start false im acts res vacts = .inl l ∧ res ≠ .ok ∧ l.live = false ∧ l.ub = false) ∨ ∃ b, start false im acts res vacts = .inr b ∧ res = .ok ∧ b.loc.live = true ∧ b.loc.ub = false := by
  have hres : (start false im acts res vacts).isRight = (res == .ok) := by cases res <;> rfl
  rcases start_ok im acts res vacts with ⟨l, e, h1, h2⟩ | ⟨b, e, hi⟩
  · exact .inl ⟨l, e, (by intro h; subst h; rw [e] at hres; simp at hres), h2, h1⟩
  · refine .inr ⟨b, e, ?_, hi.held.op.live, hi.held.op.ub⟩
    rw [e] at hres
    revert hres
    cases res <;> simp

/-! ## Concrete cases -/

example : ∃ l, start false false [.read [0]] .panic [] = .inl l ∧ l.live = false := ⟨_, rfl, by decide +kernel⟩


def exArg : Tag := (start false false [] .ok []).elim (fun _ => []) (fun b => (b.inner.bind fun v => v.items.head?).elim [] Item.tag)

example : exArg = [10, 9, 8, 7, 6, 5, 4, 3, 2, 1, 0] := by decide +kernel

/-- An impl that keeps a reference in its builder (tag 11, from its argument), writes through it in every call and in its destructor; in between, a visitor reborrows it. -/
def exProg : List BoxCall :=
  [.start false [.reborrow (.reserved false) exArg false] .ok [], .child [.write (11 :: exArg), .reborrow (.reserved false) (11 :: exArg) true, .write (12 :: 11 :: exArg)],
    .finish [.write (11 :: exArg)] .ok [.read (11 :: exArg), .write (11 :: exArg)] false, .drop [] false []]

/-- All these accesses do happen. -/
example : (World.run false (exProg.take 2)).bld.map (fun b => (b.loc.items.map fun i => (i.tag.length, i.perm), b.inner.map fun v => v.items.map fun i => (i.tag.length, i.perm))) =
    some ([(13, .active), (12, .active), (11, .active), (10, .active), (9, .active), (8, .active), (7, .active), (6, .active), (5, .active), (4, .active), (3, .active), (2, .active), (1, .active)],
      some [(13, .active), (12, .active), (11, .active)]) := by decide +kernel
example : (World.run false (exProg.take 3)).bld.map (fun b => (b.loc.items.map fun i => (i.tag.length, i.perm), b.inner)) =
    some ([(10, .active), (9, .active), (8, .active), (7, .active), (6, .active), (5, .active), (13, .disabled), (12, .disabled), (11, .disabled), (10, .disabled), (9, .disabled), (8, .disabled),
      (7, .disabled), (6, .disabled), (5, .disabled), (4, .active), (3, .active), (2, .active), (1, .active)], none) := by decide +kernel
example : World.run false exProg = ⟨none, false⟩ := by decide +kernel

/-- With a plain `Box` in place of `NonuniqueBox`, moving the builder invalidates the reference of the user's builder, if that has been written through. -/
def exWriter (arg : Tag) : List BoxCall := [.start false [.write arg] .ok [], .child [.write arg]]

example : (World.run true (exWriter [11, 9, 8, 7, 6, 5, 4, 3, 2, 1, 0])).violated = true := by decide +kernel
example : World.run false (exWriter exArg) ≠ World.run false (exWriter []) ∧ (World.run false (exWriter exArg)).violated = false := by decide +kernel

/-- The same in an `UnsafeCell`. -/
example : ((World.run false [.start true [.reborrow .reservedIM exArg false, .reborrow .cell (11 :: exArg) false, .write (12 :: 11 :: exArg)] .ok []]).bld.map fun b => b.loc.items.map fun i => (i.tag.length, i.perm)) =
    some [(13, .cell), (12, .active), (11, .active), (10, .active), (9, .active), (8, .active), (7, .active), (6, .active), (5, .active), (4, .active), (3, .active), (2, .active), (1, .active)] := by
  decide +kernel

/-- Taking the value out before the user's builder is dropped: its destructor uses an invalid reference. -/
example : (World.run false (exProg.take 2)).bld.map (fun b => ({ b with loc := take b.ptr b.loc }.user [.write (11 :: exArg)]).loc.ub) = some true := by decide +kernel

/-- So does freeing the place first. -/
example : (World.run false (exProg.take 2)).bld.map (fun b => ({ b with loc := dropBox [] b.ptr b.loc }.user [.write (11 :: exArg)]).loc.ub) = some true := by decide +kernel

/-- Writing with the library's pointer while the user's function runs is a violation, afterwards it is not. -/
example : (((lend [0] (Loc.fresh false)).1).act (.write [0])).ub = true ∧ ((((lend [0] (Loc.fresh false)).1).act .leave).act (.write [0])).ub = false := by decide +kernel

end Miniserde.BoxTree
