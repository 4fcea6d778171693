import Verif.Proof.DriverTreeInv
import Verif.Props.DriverBorrows

/-!
# C94: `from_str` under Tree Borrows

The counterpart of C61 (`Verif/Props/DriverBorrows.lean`) for the other proposal of aliasing rules (`Verif/Spec/DriverTree.lean`).
-/

namespace Miniserde

open TB

/-- **C94.** Whatever the `Visitor`s, `Seq`s and `Map`s do, at whatever memory location (in an `UnsafeCell` or not), for every input and outcome (also `Err` and panics): the run of `from_str` has no undefined
behaviour under Tree Borrows. -/
theorem C94_tree_borrows {σ : Type} (P : Proto σ) (s : Bytes) (v : P.V) (w : σ) :
    ∃ r w' m, fromStrImpl P s v w = some (r, w') ∧ fromStrImpl P.monitored s (v, 0) (w, Mon.init) = some (r, (w', m)) ∧ TB.NoViolation m.history := by
  obtain ⟨r, w', m, h1, h2, h3, -⟩ := C07_stack_discipline P s v w
  exact ⟨r, w', m, h1, h2, TB.noViolation m h3⟩

/-- **C94.** During the same runs, after every operation: the memory is live as long as anything points to it; the driver's pointer to each visitor and builder that is alive (`m.stack`) exists, and so do all references it was made from,
each of which can be read and written through; and nothing that is still to be used is protected against its ancestors: only the call of `from_str_impl` is in progress. -/
theorem C94_usable (C : TB.Safe) (m : Mon) (hm : m.ok = true) (id : Nat)
    (hy : Live.visitor id ∈ m.stack ∨ Live.builder id ∈ m.stack)
    (h : TB.Tag) (hh : (TB.St.run C m.history).handle id = some h) :
    let loc := (TB.St.run C m.history).loc
    loc.live = true ∧ loc.calls = [0] ∧ (∃ i ∈ loc.items, i.tag = h) ∧ ∀ i ∈ loc.items, i.tag <:+ h → i.open loc.calls = true := by
  have hi := TB.run_inv C m.history hm
  obtain ⟨h1, -, h3⟩ := hy.elim (fun hy => hi.core.hand _ hy h hh) (fun hy => hi.core.hand _ hy h hh)
  have hl : (TB.St.run C m.history).loc.live = true := by
    obtain ⟨i, hi', -⟩ := h1
    exact hi.core.live (List.ne_nil_of_mem hi')
  exact ⟨hl, hi.core.co.one hi.len, h1, fun i hi hs => open_iff.2 (h3 i hi hs)⟩

/-! ## What the rules forbid -/

/-- **C94, C93.** The rules, for an access (`w`: a write) through `t` where there is a node `i`:
* if `i` is `t` or `t` is derived from it, and `i` has been disabled, or if `i` is frozen and this is a write, then this is undefined behaviour;
* if not, and `i` is an argument of a call in progress, then a write is undefined behaviour (unless `i` is a `&` to an `UnsafeCell`), and so is a read if `i` has been written through;
* if not, and it is allowed, then after a write `i` is disabled (unless it is a `&` or an unused `&mut` to an `UnsafeCell`), and after a read it can no longer be written through if it has been before. -/
theorem C94_rules (l : TB.Loc) (w : Bool) (t : TB.Tag) (i : TB.Item) (hi : i ∈ l.items) :
    (i.tag <:+ t → i.perm = .disabled ∨ (i.perm = .frozen ∧ w = true) → (l.access false w t).ub = true) ∧
    (¬ i.tag <:+ t → i.guarded l.calls = true → i.perm = .active ∨ (w = true ∧ (i.perm = .frozen ∨ ∃ c, i.perm = .reserved c)) → (l.access false w t).ub = true) ∧
    (¬ i.tag <:+ t → (l.access false w t).ub = false → ∃ j ∈ (l.access false w t).items, j.tag = i.tag ∧ j.prot = i.prot ∧
      (w = true → i.perm ≠ .cell → i.perm ≠ .reservedIM → j.perm = .disabled) ∧ (w = false → i.perm = .active → j.perm = .frozen)) := by
  refine ⟨fun h1 h2 => ?_, fun h1 hg h2 => ?_, fun h1 h2 => ?_⟩
  · refine Classical.byContradiction fun hn => ?_
    have hn : (l.access false w t).ub = false := by simpa using hn
    obtain ⟨q, hq⟩ := Option.isSome_iff_exists.1 ((TB.Loc.access_spec hn).2.2.1 i hi)
    rcases TB.after_cases hq with ⟨-, a⟩ | ⟨a, -⟩ | ⟨a, -⟩
    · rcases h2 with e | ⟨e, rfl⟩ <;> rw [e] at a <;> simp [TB.Perm.child] at a
    · exact a h1
    · exact a h1
  · refine Classical.byContradiction fun hn => ?_
    have hn : (l.access false w t).ub = false := by simpa using hn
    obtain ⟨q, hq⟩ := Option.isSome_iff_exists.1 ((TB.Loc.access_spec hn).2.2.1 i hi)
    rcases TB.after_cases hq with ⟨a, -⟩ | ⟨-, a, -⟩ | ⟨-, -, a⟩
    · exact h1 a
    · cases a
    · rw [hg] at a
      rcases h2 with e | ⟨rfl, e | ⟨c, e⟩⟩ <;> rw [e] at a <;> simp [TB.Perm.foreign] at a
  · obtain ⟨q, hq⟩ := Option.isSome_iff_exists.1 ((TB.Loc.access_spec h2).2.2.1 i hi)
    rw [(TB.Loc.access_spec h2).2.2.2]
    refine ⟨_, List.mem_map_of_mem hi, rfl, rfl, ?_⟩
    simp only [hq, Option.getD_some]
    rcases TB.after_cases hq with ⟨a, -⟩ | ⟨-, a, -⟩ | ⟨-, -, a⟩
    · exact absurd a h1
    · cases a
    · constructor
      · rintro rfl n1 n2
        cases hp : i.perm <;> cases hg : i.guarded l.calls <;> simp_all [TB.Perm.foreign]
      · rintro rfl e
        rw [e] at a
        cases hg : i.guarded l.calls <;> simp_all [TB.Perm.foreign]

/-- **C94, C93.** If something else is read while a `&mut` that has not been written through is an argument of a call in progress, then it may not be written through during this call. -/
theorem C94_rules_conflict (l : TB.Loc) (t t' : TB.Tag) (i : TB.Item) (hi : i ∈ l.items) (hg : i.guarded l.calls = true) (hp : ∃ c, i.perm = .reserved c) (h1 : ¬ i.tag <:+ t) (h2 : i.tag <:+ t') :
    ((l.access false false t).access false true t').ub = true := by
  refine Classical.byContradiction fun hn => ?_
  have hn : ((l.access false false t).access false true t').ub = false := by simpa using hn
  have k1 := TB.Loc.access_spec hn
  have k2 := TB.Loc.access_spec k1.1
  obtain ⟨q, hq⟩ := Option.isSome_iff_exists.1 (k2.2.2.1 i hi)
  obtain ⟨c, hp⟩ := hp
  have e : q = .reserved true := by
    rcases TB.after_cases hq with ⟨a, -⟩ | ⟨-, a, -⟩ | ⟨-, -, a⟩
    · exact absurd a h1
    · cases a
    · rw [hg, hp] at a
      simpa [TB.Perm.foreign] using a.symm
  have hm : ({ i with perm := q } : TB.Item) ∈ (l.access false false t).items := by
    rw [k2.2.2.2]
    exact List.mem_map.2 ⟨i, hi, by simp [hq]⟩
  obtain ⟨q', hq'⟩ := Option.isSome_iff_exists.1 (k1.2.2.1 _ hm)
  have hc : (l.access false false t).calls = l.calls := by rw [k2.2.2.2]
  have hg' : ({ i with perm := q } : TB.Item).guarded (l.access false false t).calls = true := by rw [hc]; exact hg
  rcases TB.after_cases hq' with ⟨-, a⟩ | ⟨a, -⟩ | ⟨a, -⟩
  · rw [hg'] at a
    simp [e, TB.Perm.child] at a
  · exact a h2
  · exact a h2

/-- **C94, C93.** Using memory that has been freed is undefined behaviour, and so is freeing it while something that points there is an argument of a call in progress. -/
theorem C94_rules_free (l : TB.Loc) (t : TB.Tag) :
    (l.live = false → ∀ e w t, (l.access e w t).ub = true) ∧ ((l.free t).ub = false → (l.free t).live = false ∧ ∀ i ∈ l.items, i.guarded l.calls = false) := by
  refine ⟨fun h e w t => by simp [TB.Loc.access, TB.Loc.has, h, TB.Loc.bad], fun h => ?_⟩
  obtain ⟨h1, h2, h3⟩ := TB.free_spec h
  rw [h3]
  refine ⟨rfl, fun i hi => ?_⟩
  have := (TB.Loc.access_spec h1).2.2.2
  rw [this] at h2
  exact h2 { i with perm := (i.after false true t l.calls).getD i.perm } (List.mem_map.2 ⟨i, hi, rfl⟩)

/-- **C94, C93.** When a function returns or unwinds, this is never undefined behaviour by itself, if what was done before was not, starting from fresh memory. -/
theorem C94_returns (im : Bool) (as : List TB.Acc) (h : (as.foldl (fun l a => TB.Loc.act a l) (TB.Loc.fresh im)).ub = false) (hc : (as.foldl (fun l a => TB.Loc.act a l) (TB.Loc.fresh im)).calls ≠ []) :
    ((as.foldl (fun l a => TB.Loc.act a l) (TB.Loc.fresh im)).act .leave).ub = false := by
  have go : ∀ (as : List TB.Acc) (l : TB.Loc), TB.Good l → (as.foldl (fun l a => TB.Loc.act a l) l).ub = false → TB.Good (as.foldl (fun l a => TB.Loc.act a l) l) := by
    intro as
    induction as with
    | nil => exact fun _ g _ => g
    | cons a as ih =>
      intro l g h
      have mono : ∀ (as : List TB.Acc) (l : TB.Loc), (as.foldl (fun l a => TB.Loc.act a l) l).ub = false → l.ub = false := by
        intro as
        induction as with
        | nil => exact fun _ h => h
        | cons a as ih => exact fun l h => TB.act_ub (ih _ h)
      exact ih _ (g.act (mono as _ h)) h
  have g := go as _ ⟨BoxTree.sound_fresh im, fun _ => rfl⟩ h
  exact (g.sound.leave g.live h hc).1

example : let l := [TB.Acc.enter, .reborrow (.reserved false) [0] true, .write [1, 0]].foldl (fun l a => TB.Loc.act a l) (TB.Loc.fresh false)
    l.ub = false ∧ l.calls = [0] ∧ (l.act (.read [0])).ub = true ∧ (l.act .leave).ub = false := by decide +kernel

/-! ## Examples -/

/-- Tag `n`, if each tag after 4 was borrowed from the one before. -/
def exChain (n : Nat) : Tag := ((List.range (n + 1)).filter (4 ≤ ·)).reverse

/-- The location is in the box of builder 1, allocated by the visitor; the first visitor it returns points there, too.  All methods write wherever they may. -/
def exTreeBox : TB.Safe where
  start := .unused
  im := false
  acts n := if n = 0 then [.alloc] else (List.range 30).map fun k => .acc (.write (exChain k))
  cut n := if n = 3 then some (exChain 11) else none
  direct n := if n = 1 then some (exChain 4) else if n = 3 then some (exChain 11) else none
  way _ := []

/-- The argument of `from_str_impl` points to the location, the builder has a reference derived from that. -/
def exTreeRef : TB.Safe where
  start := .direct
  im := false
  acts _ := (List.range 10).flatMap fun k =>
    [.acc (.write (exChain k ++ [2, 1, 0])), .acc (.reborrow (.reserved false) (exChain k ++ [2, 1, 0]) true), .acc (.read (exChain k ++ [2, 1, 0]))]
  cut n := if n = 1 then some (exChain 5 ++ [2, 1, 0]) else none
  direct _ := none
  way _ := []

/-- When visitor 2 has been called: 7 is the driver's pointer to builder 1, 13 its pointer to the visitor, 15 the argument `&mut self`. -/
example : (TB.St.run exTreeBox [.callVisitor 2, .newVisitor 2 1, .callBuilder 1, .newBuilder 1 0, .callVisitor 0]).loc.items.map (fun i => (i.tag.head?, i.perm, i.prot)) =
    [(some 15, .active, some 9), (some 14, .active, none), (some 13, .active, some 8), (some 12, .active, none), (some 11, .active, some 7), (some 10, .active, none), (some 9, .active, none), (some 8, .active, none),
     (some 7, .active, some 4), (some 6, .active, some 3), (some 5, .active, none), (some 4, .active, none)] := by
  decide +kernel

/-- In the end the box has been freed. -/
example : let s := TB.St.run exTreeBox [.dropBuilder 1, .callBuilder 1, .callVisitor 2, .newVisitor 2 1, .callBuilder 1, .newBuilder 1 0, .callVisitor 0]
    s.loc.ub = false ∧ s.loc.live = false := by decide +kernel

/-- The builder of the second example is called, and dropped, and then the visitor is used again. -/
example : let s := TB.St.run exTreeRef [.callVisitor 0, .dropBuilder 1, .callBuilder 1, .newBuilder 1 0, .callVisitor 0]
    s.loc.ub = false ∧ s.root 1 = some [5, 4, 2, 1, 0] ∧ s.handle 0 = some [2, 1, 0] := by decide +kernel

/-! The rules do forbid things. -/

/-- Using a visitor after its builder was dropped. -/
example : (TB.St.run exTreeBox [.callVisitor 2, .dropBuilder 1, .newVisitor 2 1, .callBuilder 1, .newBuilder 1 0, .callVisitor 0]).loc.ub = true := by decide +kernel
example : ¬ TB.NoViolation [.callVisitor 2, .dropBuilder 1, .newVisitor 2 1, .callBuilder 1, .newBuilder 1 0, .callVisitor 0] := fun h => by
  have := h exTreeBox
  revert this
  decide +kernel

/-- Using the visitor while the builder it returned is still used. -/
example : (TB.St.run exTreeRef [.callBuilder 1, .callVisitor 0, .newBuilder 1 0, .callVisitor 0]).loc.ub = true := by decide +kernel

end Miniserde
