import Verif.Proof.TagOrder
import Verif.Spec.SerBorrows

/-!
# The driver of `to_string` follows Stacked Borrows
-/

namespace Miniserde.SB

/-- The shared reborrow of what is not in an `UnsafeCell`. -/
theorem Rel.refRO {B : List Item} {r : Run} (hr : Rel B r) {t : Nat} {a b : List Item} {g : Item} (hl : locate false t r.view.items = some (a, g, b))
    (hg : (a.any fun i => i.perm == .unique && i.guarded r.view.calls) = false) {prot : Bool} (hc : prot = true → r.view.calls ≠ []) :
    Rel B (r.ref false t prot).1 ∧ Steps r (r.ref false t prot).1 ∧ (r.ref false t prot).1.mine = r.mine ∧ (r.ref false t prot).1.view.calls = r.view.calls ∧ (r.ref false t prot).1.view.tag = r.view.tag + 1 ∧
    (r.ref false t prot).1.view.items = ⟨r.view.tag, .sharedRO, if prot = true then r.view.calls.head? else none⟩ :: (a.map (fun i => if i.perm = .unique then { i with perm := .disabled } else i) ++ g :: b) := by
  have eq : r.ref false t prot = (r.lib (.reborrow .sharedRO t prot), r.real.tag) := by simp [Run.ref, sharedPerm]
  rw [eq]
  have e : r.view.read t = { r.view with items := a.map (fun i => if i.perm = .unique then { i with perm := .disabled } else i) ++ g :: b } := by
    simp only [Loc.read, hr.vlive, hl, hg]
    rfl
  have ha : (r.view.act (.reborrow .sharedRO t prot)).ub = false := by
    simp only [Loc.act, e, Loc.push]
    exact hr.ub
  obtain ⟨h1, h2, h3⟩ := hr.lib ha (fun p t e => by cases e; exact hc rfl)
  refine ⟨h1, h2, h3, ?_, ?_, ?_⟩
  · show (r.view.act _).calls = _
    simp only [Loc.act, e, Loc.push]
  · rfl
  · show (r.view.act _).items = _
    simp only [Loc.act, e, Loc.push]

/-- The shared reborrow of what is in an `UnsafeCell`. -/
theorem Rel.refRW {B : List Item} {r : Run} (hr : Rel B r) {t : Nat} {a b : List Item} {g : Item} (hl : locate true t r.view.items = some (a, g, b)) (prot : Bool) :
    Rel B (r.ref true t prot).1 ∧ Steps r (r.ref true t prot).1 ∧ (r.ref true t prot).1.mine = r.mine ∧ (r.ref true t prot).1.view.calls = r.view.calls ∧ (r.ref true t prot).1.view.tag = r.view.tag + 1 ∧
    (r.ref true t prot).1.view.items = popped g a ++ ⟨r.view.tag, .sharedRW, none⟩ :: (keep g a ++ g :: b) := by
  have eq : r.ref true t prot = (r.lib (.reborrow .sharedRW t false), r.real.tag) := by simp [Run.ref, sharedPerm]
  rw [eq]
  have e : r.view.act (.reborrow .sharedRW t false) = { r.view with items := popped g a ++ ⟨r.view.tag, .sharedRW, none⟩ :: (keep g a ++ g :: b), tag := r.view.tag + 1 } := by
    simp only [Loc.act, Loc.raw, hr.vlive, hl]
    simp
  have ha : (r.view.act (.reborrow .sharedRW t false)).ub = false := by
    rw [e]
    exact hr.ub
  obtain ⟨h1, h2, h3⟩ := hr.lib ha (fun p t e => by cases e)
  refine ⟨h1, h2, h3, ?_, ?_, ?_⟩
  · show (r.view.act _).calls = _
    rw [e]
  · rfl
  · show (r.view.act _).items = _
    rw [e]

theorem any_unguarded (a : List Item) : (a.any fun i => i.perm == .unique && i.guarded []) = false := by
  rw [List.any_eq_false]
  intro i _
  simp only [Item.guarded]
  split <;> simp

theorem locate_ref {h : Nat} {bot : List Item} : ∀ {up : List Item}, (∀ i ∈ up, i.tag ≠ h) → locate false h (up ++ hItem .sharedRO h :: bot) = some (up, hItem .sharedRO h, bot)
  | [], _ => by simp [locate, Item.grants]
  | i :: up, hu => by
    have hi : i.grants false h = false := by
      have := hu i (List.mem_cons_self ..)
      simp only [Item.grants, Bool.and_eq_false_iff]
      exact .inl (by simp; omega)
    simp only [List.cons_append, locate, hi, Bool.false_eq_true, if_false, locate_ref fun j hj => hu j (List.mem_cons_of_mem _ hj)]
    rfl

/-- The driver's reference is valid. -/
structure Kept (p : Perm) (B : List Item) (h : Nat) (r0 r : Run) : Prop where
  rel : Rel B r
  steps : Steps r0 r
  uniq : Uniq r.real
  tag : h < r.view.tag
  items : ∃ up bot, r.view.items = up ++ hItem p h :: bot ∧ ∀ j ∈ up, j.tag ≠ h

theorem Rel.uniq {B : List Item} {r : Run} (hr : Rel B r) (hu : Uniq r.real) : Uniq r.view := by
  have e := hr.real
  have ei : r.real.items = r.view.items ++ B := by rw [e]; rfl
  have hn := hu.nodup
  rw [ei, List.map_append, List.nodup_append] at hn
  refine ⟨hn.1, fun i hi => ?_⟩
  rw [← hr.tag_eq]
  exact hu.lt i (by rw [ei]; exact List.mem_append_left _ hi)

theorem Kept.lib {p : Perm} {B : List Item} {h : Nat} {r0 r : Run} (hk : Kept p B h r0 r) {a : Acc} (ha : (r.view.act a).ub = false) (hc : ∀ p t, a = .reborrow p t true → r.view.calls ≠ [])
    (hm : hItem p h ∈ (r.view.act a).items) : Kept p B h r0 (r.lib a) := by
  obtain ⟨h1, h2, h3⟩ := hk.rel.lib ha hc
  obtain ⟨up, bot, e, hy⟩ := hk.items
  obtain ⟨up', bot', e'⟩ := List.append_of_mem hm
  refine ⟨h1, hk.steps.trans h2, hk.uniq.act a, Nat.lt_of_lt_of_le hk.tag h2.tag, up', bot', e', fun j hj => ?_⟩
  rcases act_above (hk.rel.uniq hk.uniq) e e' rfl j hj with ej | ⟨k, hk', ek⟩
  · rw [ej]; exact Nat.ne_of_gt hk.tag
  · rw [← ek]; exact hy k hk'

theorem mem_read {t : Nat} {v : Loc} {i : Item} (hi : i ∈ v.items) (hp : i.perm ≠ .unique) : i ∈ (v.read t).items := by
  unfold Loc.read
  split
  · rename_i a g b _ hl
    split
    · exact hi
    · rw [(locate_spec hl).1] at hi
      rcases List.mem_append.1 hi with hi | hi
      · exact List.mem_append_left _ (List.mem_map.2 ⟨i, hi, by rw [if_neg hp]⟩)
      · exact List.mem_append_right _ hi
  · exact hi

theorem mem_raw {t : Nat} {v : Loc} {i x : Item} (hi : i ∈ v.items) : i ∈ (v.raw t x).items := by
  unfold Loc.raw
  split
  · rename_i a g b _ hl
    rw [(locate_spec hl).1, ← popped_keep g a, List.append_assoc] at hi
    rcases List.mem_append.1 hi with hi | hi
    · exact List.mem_append_left _ hi
    · exact List.mem_append_right _ (List.mem_cons_of_mem _ hi)
  · exact hi

theorem Kept.ref {cell : Bool} {B : List Item} {h : Nat} {r0 r : Run} (hk : Kept (sharedPerm cell) B h r0 r) {t : Nat} {prot : Bool} (ha : (r.ref cell t prot).1.view.ub = false) (hc : prot = true → r.view.calls ≠ []) :
    Kept (sharedPerm cell) B h r0 (r.ref cell t prot).1 := by
  refine hk.lib ha (fun p t e => ?_) ?_
  · cases cell <;> cases prot <;> first | exact hc rfl | (simp at e)
  · obtain ⟨up, bot, e, -⟩ := hk.items
    have hi : hItem (sharedPerm cell) h ∈ r.view.items := by rw [e]; simp
    cases cell with
    | false => exact List.mem_cons_of_mem _ (mem_read hi (by simp [sharedPerm]))
    | true => exact mem_raw hi

/-- The driver's reference is used. -/
theorem Ready.serVisitor {cell : Bool} {B up bot : List Item} {h : Nat} {r : Run} (hr : Ready (sharedPerm cell) B up bot h r) (hu : Uniq r.real) :
    Kept (sharedPerm cell) B h r (St.serVisitor cell h r) ∧ (St.serVisitor cell h r).mine = r.mine ∧ (St.serVisitor cell h r).view.calls ≠ [] := by
  have k0 : Kept (sharedPerm cell) B h r r := ⟨hr.rel, .refl r, hu, hr.tag, up, bot, hr.items, hr.young⟩
  have u1 : (r.ref cell h false).1.view.ub = false ∧ ∃ x, (r.ref cell h false).1.view.items = x ∧ ⟨r.view.tag, sharedPerm cell, none⟩ ∈ x ∧ (cell = false → x.head? = some ⟨r.view.tag, .sharedRO, none⟩) := by
    cases cell with
    | false =>
      obtain ⟨a1, -, -, -, -, a6⟩ := hr.rel.refRO (t := h) (prot := false) (a := up) (g := hItem .sharedRO h) (b := bot) (by rw [hr.items]; exact locate_ref hr.young) (by rw [hr.calls]; exact any_unguarded _) (by simp)
      exact ⟨a1.ub, _, a6, by simp [sharedPerm], by simp⟩
    | true =>
      obtain ⟨a1, -, -, -, -, a6⟩ := hr.rel.refRW (t := h) (a := up) (g := hItem .sharedRW h) (b := bot) (by rw [hr.items]; exact locate_item (.inr rfl) hr.young) false
      exact ⟨a1.ub, _, a6, by simp [sharedPerm], by simp⟩
  have k1 := k0.ref (t := h) (prot := false) u1.1 (by simp)
  have et : (r.ref cell h false).2 = r.view.tag := hr.rel.tag_eq
  have m1 : (r.ref cell h false).1.mine = r.mine := rfl
  simp only [St.serVisitor, et]
  generalize (r.ref cell h false).1 = r1 at *
  obtain ⟨-, x, e, hx, hh⟩ := u1
  have k2 : Kept (sharedPerm cell) B h r (r1.lib .enter) := by
    refine k1.lib k1.rel.ub (fun p t e => by cases e) ?_
    obtain ⟨up, bot, e, -⟩ := k1.items
    show _ ∈ r1.view.items
    rw [e]; simp
  have c2 : (r1.lib .enter).view.calls ≠ [] := by simp [Run.lib, Loc.act]
  have e2 : (r1.lib .enter).view.items = x := e
  have m2 : (r1.lib .enter).mine = r.mine := m1
  generalize r1.lib .enter = r2 at *
  have u2 : (r2.ref cell r.view.tag true).1.view.ub = false ∧ (r2.ref cell r.view.tag true).1.view.calls = r2.view.calls := by
    cases cell with
    | false =>
      obtain ⟨i, y, rfl⟩ : ∃ i y, x = i :: y := by
        cases x with
        | nil => cases hx
        | cons i y => exact ⟨i, y, rfl⟩
      obtain rfl : i = ⟨r.view.tag, .sharedRO, none⟩ := by simpa using hh rfl
      obtain ⟨c1, -, -, c4, -, -⟩ := k2.rel.refRO (t := r.view.tag) (a := []) (g := ⟨r.view.tag, .sharedRO, none⟩) (b := y) (by rw [e2]; simp [locate, Item.grants]) rfl (prot := true) (fun _ => c2)
      exact ⟨c1.ub, c4⟩
    | true =>
      obtain ⟨⟨a, g, b⟩, hl⟩ := BoxAlias.locate_mem (t := r.view.tag) (s := r2.view.items) ⟨⟨r.view.tag, .sharedRW, none⟩, by rw [e2]; exact hx, by simp [Item.grants]⟩
      obtain ⟨c1, -, -, c4, -, -⟩ := k2.rel.refRW hl true
      exact ⟨c1.ub, c4⟩
  exact ⟨k2.ref u2.1 (fun _ => c2), m2, by rw [u2.2]; exact c2⟩

theorem Kept.step {p : Perm} {B : List Item} {h : Nat} {r0 r : Run} (hk : Kept p B h r0 r) (hm : r.mine = false) (hc : r.view.calls ≠ []) (u : UAct) (hi : hItem p h ∈ (r.step u).view.items) :
    Kept p B h r0 (r.step u) ∧ (r.step u).mine = false ∧ (r.step u).view.calls ≠ [] := by
  have nu : r.unused = false := by
    cases hu : r.unused with
    | false => rfl
    | true =>
      obtain ⟨up, bot, e, -⟩ := hk.items
      rw [(hk.rel.unused hu).1] at e
      simp at e
  cases u with
  | acc a =>
    simp only [Run.step] at hi ⊢
    split at hi
    · rename_i hn; rw [if_pos hn]; exact ⟨hk, hm, hc⟩
    · rename_i hn
      rw [if_neg hn]
      simp only [Bool.or_eq_true, not_or, Bool.not_eq_true] at hn
      refine ⟨hk.lib hn.1 (fun _ _ _ => hc) hi, hm, fun e => ?_⟩
      have := hn.2
      rw [show (r.view.act a).calls = [] from e] at this
      simp at this
  | alloc => simp only [Run.step, nu]; exact ⟨hk, hm, hc⟩
  | free t => simp only [Run.step, hm]; exact ⟨hk, hm, hc⟩

theorem Kept.user {p : Perm} {B : List Item} {h : Nat} {r0 : Run} : ∀ (us : List UAct) {r : Run}, Kept p B h r0 r → r.mine = false → r.view.calls ≠ [] →
    Kept p B h r0 (us.foldl (fun r u => if hItem p h ∈ (r.step u).view.items then r.step u else r) r)
  | [], r, hk, _, _ => hk
  | u :: us, r, hk, hm, hc => by
    rw [List.foldl_cons]
    split
    · rename_i hi
      obtain ⟨k1, k2, k3⟩ := hk.step hm hc u hi
      exact Kept.user us k1 k2 k3
    · exact Kept.user us hk hm hc

theorem Kept.userKeep {p : Perm} {B : List Item} {h : Nat} {r0 r : Run} (hk : Kept p B h r0 r) (hm : r.mine = r0.mine) (hc : r.view.calls ≠ []) (us : List UAct) :
    Kept p B h r0 (r.userKeep (hItem p h) us) ∧ (r.userKeep (hItem p h) us).mine = r0.mine := by
  have nu : r.unused = false := by
    cases hu : r.unused with
    | false => rfl
    | true =>
      obtain ⟨up, bot, e, -⟩ := hk.items
      rw [(hk.rel.unused hu).1] at e
      simp at e
  have k0 : Kept p B h { r with mine := false } { r with mine := false } :=
    ⟨⟨hk.rel.real, hk.rel.vlive, hk.rel.ub, hk.rel.live, hk.rel.prots, hk.rel.calls, hk.rel.call, fun e => (by rw [show r.unused = true from e] at nu; cases nu), fun e => (by cases e)⟩, .refl _, hk.uniq, hk.tag, hk.items⟩
  have k1 := Kept.user us k0 rfl hc
  have e : r.userKeep (hItem p h) us = { us.foldl (fun r u => if hItem p h ∈ (r.step u).view.items then r.step u else r) { r with mine := false } with mine := r.mine } := rfl
  rw [e]
  generalize us.foldl (fun r u => if hItem p h ∈ (r.step u).view.items then r.step u else r) { r with mine := false } = x at *
  have n1 : x.unused = false := by
    cases hu : x.unused with
    | false => rfl
    | true => have := k1.steps.unused hu; rw [show r.unused = true from this] at nu; cases nu
  have hs : Steps r { x with mine := r.mine } := by
    refine ⟨k1.steps.newer, k1.steps.tag, k1.steps.call, .inl, fun e => ?_, fun _ hu => k1.steps.live rfl hu, k1.steps.empty⟩
    rw [show x.unused = true from e] at n1; cases n1
  refine ⟨⟨⟨k1.rel.real, k1.rel.vlive, k1.rel.ub, k1.rel.live, k1.rel.prots, k1.rel.calls, k1.rel.call, fun e => ?_, hk.rel.mine⟩, hk.steps.trans hs, k1.uniq, k1.tag, k1.items⟩, hm⟩
  rw [show x.unused = true from e] at n1; cases n1

theorem Ready.serBuilder {B up bot : List Item} {h : Nat} {r : Run} (hr : Ready .unique B up bot h r) : Lent .unique B h bot r (St.serBuilder h r) := hr.preVisitor (.inl rfl)

theorem Ready.serDrop {B up bot : List Item} {h : Nat} {r : Run} (hr : Ready .unique B up bot h r) : Lent .unique B h bot r ((r.lib .enter).reb h true).1 := by
  obtain ⟨e1, e2, e3⟩ := hr.enter
  have h1 := Ready.first (.inl rfl) true hr e1 e2 e3 rfl (by
    intro c hc
    simp only [Run.lib, Loc.act, hr.calls, List.mem_cons, List.not_mem_nil, or_false] at hc
    omega) (by simp [Run.lib, Loc.act])
  exact h1.lent (by simp [Run.lib, Loc.act])

theorem Top.owned {Q : Nat → Prop} {r0 r : Run} {B s : List Item} {cs : List Nat} {t : Nat} (ht : Top Q r0 B s cs (r.reb t false).1 (r.reb t false).2) (hr : r.real.tag = r.view.tag) :
    Pointed .unique B r0 cs (r.reb t false).1 (r.reb t false).2 := by
  refine ⟨ht.rel, ht.steps, ht.mine, ht.calls, ?_, ?_⟩
  · show r.real.tag < r.view.tag + 1
    omega
  · exact ⟨(r.view.write t).items, by simp [Run.reb, Run.lib, Loc.act, Loc.push, hr]⟩

theorem Ready.serMove {B up bot : List Item} {h : Nat} {r : Run} (hr : Ready .unique B up bot h r) : Pointed .unique B r [] (r.reb h false).1 (r.reb h false).2 := by
  have := Ready.first (.inl rfl) false hr hr.rel (.refl r) rfl rfl (by rw [hr.calls]; simp) (by simp)
  rw [hr.calls] at this
  exact this.owned hr.rel.tag_eq

theorem serConvBuilder_pointed (way : List Bool) {B : List Item} {r : Run} (hr : Rel B r) (hc : r.view.calls = []) {t : Nat} (ht : (locate true t r.view.items).isSome = true) :
    Pointed .unique B r [] (St.serConvBuilder way t r).1 (St.serConvBuilder way t r).2 := by
  have h1 := (conv_first hr hc ht).pass (fun _ _ => trivial) way
  exact (Top.reb (fun _ _ => trivial) h1 false (by simp)).owned h1.rel.tag_eq

/-- A shared reference of the driver on its way: `t` can be used.  The entries of the view without `s` are in `Q`. -/
structure RefTop (Q : Nat → Prop) (cell : Bool) (r0 : Run) (B s : List Item) (cs : List Nat) (r : Run) (t : Nat) : Prop where
  rel : Rel B r
  steps : Steps r0 r
  mine : r.mine = r0.mine
  calls : r.view.calls = cs
  uniq : Uniq r.real
  tag : t < r.view.tag
  items : ∃ up p mid, r.view.items = up ++ ⟨t, sharedPerm cell, p⟩ :: (mid ++ s) ∧ (cell = false → up = []) ∧ (cell = true → p = none) ∧ (∀ i ∈ up, i.tag ≠ t) ∧ Q t ∧ ∀ i ∈ up ++ mid, Q i.tag

theorem RefTop.enter {Q : Nat → Prop} {cell : Bool} {r0 r : Run} {B s : List Item} {cs : List Nat} {t : Nat} (h : RefTop Q cell r0 B s cs r t) : RefTop Q cell r0 B s (r.view.call :: cs) (r.lib .enter) t := by
  obtain ⟨h1, h2, h3⟩ := h.rel.lib (a := .enter) h.rel.ub (fun p t e => by cases e)
  exact ⟨h1, h.steps.trans h2, h3.trans h.mine, by simp [Run.lib, Loc.act, h.calls], h.uniq.act .enter, h.tag, h.items⟩

theorem RefTop.leave {Q : Nat → Prop} {cell : Bool} {r0 r : Run} {B s : List Item} {c : Nat} {cs : List Nat} {t : Nat} (h : RefTop Q cell r0 B s (c :: cs) r t) : RefTop Q cell r0 B s cs (r.lib .leave) t := by
  have e : r.view.act .leave = { r.view with calls := cs } := by simp only [Loc.act, h.calls]
  obtain ⟨h1, h2, h3⟩ := h.rel.lib (a := .leave) (by rw [e]; exact h.rel.ub) (fun p t e => by cases e)
  exact ⟨h1, h.steps.trans h2, h3.trans h.mine, by simp only [Run.lib, e], h.uniq.act .leave, by simp only [Run.lib, e]; exact h.tag, by simp only [Run.lib, e]; exact h.items⟩

/-- A reborrow of what `t` grants. -/
theorem RefTop.of {Q : Nat → Prop} {cell : Bool} {r0 r : Run} {B s b' : List Item} {cs : List Nat} {t : Nat} {a b : List Item} {g : Item} {prot : Bool} (hQ : ∀ n, r0.view.tag ≤ n → Q n)
    (hr : Rel B r) (hs : Steps r0 r) (hm : r.mine = r0.mine) (hc : r.view.calls = cs) (hu : Uniq r.real) (hl : locate cell t r.view.items = some (a, g, b))
    (hg : cell = false → (a.any fun i => i.perm == .unique && i.guarded cs) = false) (hp : prot = true → cs ≠ []) (hb : g :: b = b' ++ s) (hq : ∀ i ∈ a ++ b', Q i.tag) :
    RefTop Q cell r0 B s cs (r.ref cell t prot).1 (r.ref cell t prot).2 := by
  have et : (r.ref cell t prot).2 = r.view.tag := hr.tag_eq
  rw [et]
  have hQt : Q r.view.tag := hQ _ hs.tag
  cases cell with
  | false =>
    obtain ⟨a1, a2, a3, a4, a5, a6⟩ := hr.refRO (prot := prot) hl (by rw [hc]; exact hg rfl) (by rw [hc]; exact hp)
    refine ⟨a1, hs.trans a2, a3.trans hm, a4.trans hc, hu.act (.reborrow (sharedPerm false) t (prot && !false)), by omega, [], (if prot = true then r.view.calls.head? else none), a.map (fun i => if i.perm = .unique then { i with perm := .disabled } else i) ++ b', ?_, fun _ => rfl, fun e => (by cases e),
      fun i hi => (List.not_mem_nil hi).elim, hQt, fun i hi => ?_⟩
    · rw [a6, hb, List.append_assoc]; rfl
    · rw [List.nil_append] at hi
      rcases List.mem_append.1 hi with hi | hi
      · obtain ⟨j, hj, rfl⟩ := List.mem_map.1 hi
        have := hq j (List.mem_append_left _ hj)
        split <;> exact this
      · exact hq i (List.mem_append_right _ hi)
  | true =>
    obtain ⟨a1, a2, a3, a4, a5, a6⟩ := hr.refRW hl prot
    have ea := popped_keep g a
    refine ⟨a1, hs.trans a2, a3.trans hm, a4.trans hc, hu.act (.reborrow (sharedPerm true) t (prot && !true)), by omega, popped g a, none, keep g a ++ b', ?_, fun e => (by cases e), fun _ => rfl, fun i hi => ?_, hQt, fun i hi => ?_⟩
    · rw [a6, hb, List.append_assoc]; rfl
    · refine Nat.ne_of_lt ((hr.uniq hu).lt i ?_)
      rw [(locate_spec hl).1]
      exact List.mem_append_left _ (popped_sub _ _ i hi)
    · rw [← List.append_assoc, ea] at hi
      exact hq i hi

theorem RefTop.ref {Q : Nat → Prop} {cell : Bool} {r0 r : Run} {B s : List Item} {cs : List Nat} {t : Nat} (hQ : ∀ n, r0.view.tag ≤ n → Q n) (h : RefTop Q cell r0 B s cs r t) (prot : Bool)
    (hp : prot = true → cs ≠ []) : RefTop Q cell r0 B s cs (r.ref cell t prot).1 (r.ref cell t prot).2 := by
  obtain ⟨up, p, mid, e, h1, h2, h3, h4, h5⟩ := h.items
  refine RefTop.of (a := up) (g := ⟨t, sharedPerm cell, p⟩) (b := mid ++ s) (b' := ⟨t, sharedPerm cell, p⟩ :: mid) hQ h.rel h.steps h.mine h.calls h.uniq ?_ (fun ec => by rw [h1 ec]; rfl) hp rfl ?_
  · rw [e]
    cases cell with
    | false => rw [h1 rfl]; simp [locate, Item.grants, sharedPerm]
    | true =>
      rw [h2 rfl]
      exact locate_item (.inr rfl) h3
  · intro i hi
    rcases List.mem_append.1 hi with hi | hi
    · exact h5 i (List.mem_append_left _ hi)
    · rcases List.mem_cons.1 hi with rfl | hi
      · exact h4
      · exact h5 i (List.mem_append_right _ hi)

theorem RefTop.pass {Q : Nat → Prop} {cell : Bool} {r0 r : Run} {B s : List Item} {t : Nat} (hQ : ∀ n, r0.view.tag ≤ n → Q n) (h : RefTop Q cell r0 B s [] r t) (way : List Bool) :
    RefTop Q cell r0 B s [] (r.pass (Run.ref cell) way t).1 (r.pass (Run.ref cell) way t).2 := by
  obtain ⟨cs, e, k⟩ := pass_ind (reb := Run.ref cell) (P := fun r t d => ∃ cs : List Nat, cs.length = d ∧ RefTop Q cell r0 B s cs r t)
    (fun r t d ⟨cs, e, h⟩ => ⟨_, congrArg (· + 1) e, RefTop.ref hQ h.enter true (by simp)⟩)
    (fun r t ⟨cs, e, h⟩ => ⟨cs, e, RefTop.ref hQ h false (by simp)⟩)
    (fun r t d ⟨cs, e, h⟩ => by
      cases cs with
      | nil => cases e
      | cons c cs => exact ⟨cs, Nat.succ.inj e, RefTop.ref hQ h.leave false (by simp)⟩) way ⟨[], rfl, h⟩
  obtain rfl := List.eq_nil_of_length_eq_zero e
  exact k

/-- The entry of a reference that is not an argument is not protected. -/
theorem RefTop.bound {Q : Nat → Prop} {cell : Bool} {r0 r : Run} {B s : List Item} {t : Nat} (h : RefTop Q cell r0 B s [] r t) :
    ∃ up bot, (r.ref cell t false).1.view.items = up ++ hItem (sharedPerm cell) (r.ref cell t false).2 :: bot ∧ ∀ i ∈ up, i.tag ≠ (r.ref cell t false).2 := by
  obtain ⟨up, p, mid, e, h1, h2, h3, -, -⟩ := h.items
  cases cell with
  | false =>
    obtain ⟨-, -, -, -, -, a6⟩ := h.rel.refRO (prot := false) (t := t) (a := []) (g := ⟨t, .sharedRO, p⟩) (b := mid ++ s) (by rw [e, h1 rfl]; simp [locate, Item.grants, sharedPerm]) rfl (by simp)
    have et : (r.ref false t false).2 = r.view.tag := h.rel.tag_eq
    exact ⟨[], _, (by rw [a6, et]; rfl), fun i hi => (List.not_mem_nil hi).elim⟩
  | true =>
    have h' : RefTop (fun _ => True) true r0 B s [] r t := ⟨h.rel, h.steps, h.mine, h.calls, h.uniq, h.tag, up, p, mid, e, h1, h2, h3, trivial, fun _ _ => trivial⟩
    obtain ⟨up', p', mid', e', -, k2, k3, -, -⟩ := (h'.ref (fun _ _ => trivial) false (by simp)).items
    rw [k2 rfl] at e'
    exact ⟨up', _, e', k3⟩

/-- Reading through it. -/
theorem RefTop.read {Q : Nat → Prop} {r0 r : Run} {B s : List Item} {cs : List Nat} {t : Nat} (h : RefTop Q false r0 B s cs r t) :
    Rel B (r.lib (.read t)) ∧ Steps r0 (r.lib (.read t)) ∧ (r.lib (.read t)).mine = r0.mine ∧ ∃ up, (r.lib (.read t)).view.items = up ++ s ∧ ∀ i ∈ up, Q i.tag := by
  obtain ⟨up, p, mid, e, h1, h2, h3, h4, h5⟩ := h.items
  rw [h1 rfl, List.nil_append] at e
  have ea : r.view.act (.read t) = r.view := by
    have hl : locate false t r.view.items = some ([], ⟨t, .sharedRO, p⟩, mid ++ s) := by rw [e]; simp [locate, Item.grants, sharedPerm]
    simp only [Loc.act, Loc.read, h.rel.vlive, hl, List.any_nil, List.map_nil, List.nil_append]
    rw [show (⟨t, .sharedRO, p⟩ : Item) :: (mid ++ s) = r.view.items from e.symm, if_neg (by simp), ← h.rel.vlive]
  obtain ⟨k1, k2, k3⟩ := h.rel.lib (a := .read t) (by rw [ea]; exact h.rel.ub) (fun p t e => by cases e)
  refine ⟨k1, h.steps.trans k2, k3.trans h.mine, ⟨t, sharedPerm false, p⟩ :: mid, ?_, fun i hi => ?_⟩
  · show (r.view.act _).items = _
    rw [ea, e]; rfl
  · rcases List.mem_cons.1 hi with rfl | hi
    · exact h4
    · exact h5 i (List.mem_append_right _ hi)

/-- A returned reference is passed on and bound to a variable: its entry, and what is above it. -/
theorem serConvVisitor_kept {cell : Bool} (way : List Bool) {B : List Item} {r : Run} (hr : Rel B r) (hu : Uniq r.real) (hc : r.view.calls = []) {t : Nat} (ht : (locate cell t r.view.items).isSome = true) :
    Rel B (St.serConvVisitor cell way t r).1 ∧ Steps r (St.serConvVisitor cell way t r).1 ∧
    (St.serConvVisitor cell way t r).2 < (St.serConvVisitor cell way t r).1.view.tag ∧
    ∃ up bot, (St.serConvVisitor cell way t r).1.view.items = up ++ hItem (sharedPerm cell) (St.serConvVisitor cell way t r).2 :: bot ∧ ∀ i ∈ up, i.tag ≠ (St.serConvVisitor cell way t r).2 := by
  obtain ⟨⟨a, g, b⟩, hl⟩ := Option.isSome_iff_exists.1 ht
  have h1 := RefTop.of (Q := fun _ => True) (s := []) (prot := false) (fun _ _ => trivial) hr (.refl r) rfl hc hu hl (fun _ => any_unguarded _) (by simp) (List.append_nil _).symm fun _ _ => trivial
  have h2 := h1.pass (fun _ _ => trivial) way
  have h3 := h2.ref (fun _ _ => trivial) false (by simp)
  exact ⟨h3.rel, h3.steps, h3.tag, h2.bound⟩

/-- `to_string_impl`: references and boxes. -/
def serK (cell : Bool) : Live → Perm
  | .visitor _ => sharedPerm cell
  | .builder _ => .unique

variable {strict cell : Bool}

theorem Uniq.enter {s : St} (h : Uniq s.loc) (id : Nat) : Uniq (s.enter id).real := h

/-- A reference to a value is bound to a variable. -/
theorem Core.serPoint {v : Nat} {R : List Live} {next : Nat} {base : List Item} {s : St} (h : Core (serK cell) strict (.visitor v :: R) next base s) (hu : Uniq s.loc) (way : List Bool) (t : Nat) :
    Core (serK cell) strict (.visitor v :: R) next base (s.point cell (St.serConvVisitor cell way) t v) := by
  unfold St.point
  split
  · rename_i ht
    obtain ⟨h1, h2, h3, h4⟩ := serConvVisitor_kept way h.enter hu rfl ht
    refine Core.exit (x := .visitor v) h h1 h2 _ ?_ ?_
    · intro k e
      obtain rfl := Option.some.inj e
      exact ⟨h3, h4⟩
    · intro i k e; cases e
  · exact h

/-- `begin` is called. -/
theorem Core.serBegin {v : Nat} {R : List Live} {next : Nat} {base : List Item} {s : St} (h : Core (serK cell) strict (.visitor v :: R) next base s) (hu : Uniq s.loc) (us : List UAct) :
    Core (serK cell) strict (.visitor v :: R) next base (s.serBegin cell us v) := by
  unfold St.serBegin
  split
  · rename_i k hk
    obtain ⟨up, bot, hr⟩ := Core.ready (x := .visitor v) h hk
    obtain ⟨k1, k2, k3⟩ := Ready.serVisitor hr hu
    obtain ⟨k4, k5⟩ := k1.userKeep k2 k3 us
    rw [← exit_same]
    refine Core.exit (x := .visitor v) h k4.rel k4.steps _ ?_ ?_
    · intro k' e
      obtain rfl : k = k' := by rw [hk] at e; simpa using e
      exact ⟨k4.tag, k4.items⟩
    · intro i k e; cases e
  · rename_i hk
    obtain ⟨h1, h2, h3⟩ := h.enter.lib (a := .enter) h.enter.ub (fun p t e => by cases e)
    obtain ⟨k1, k2⟩ := Rel.user us h1 (by simp [Run.lib, Loc.act])
    rw [← exit_same]
    refine Core.exit (x := .visitor v) h k1 (h2.trans k2) _ ?_ ?_
    · intro k e; rw [hk] at e; cases e
    · intro i k e; cases e

/-- The driver reads a string. -/
theorem Core.serText {x : Live} {R : List Live} {next : Nat} {base : List Item} {s : St} (h : Core (serK cell) strict (x :: R) next base s) (hu : Uniq s.loc) (way : List Bool) (t : Option Nat) :
    Core (serK cell) strict (x :: R) next base (s.serText way t (lid x)) := by
  unfold St.serText
  split
  · rename_i t
    split
    · rename_i ht
      obtain ⟨⟨a, g, b⟩, hl⟩ := Option.isSome_iff_exists.1 ht
      obtain ⟨l, r, e1, e2, e3, e4⟩ := lendable_prefix h (s.lendable (lid x)).length
      rw [List.take_length] at e1
      rw [e1] at hl
      have hl' : locate false t (s.enter (lid x)).view.items = some (a, g, b ++ r) := by
        show locate false t (s.views (lid x)) = _
        rw [e3]; exact locate_append hl
      have el := (locate_spec hl).1
      -- what lies below
      have key : ∀ (Q : Nat → Prop), (∀ n, (s.enter (lid x)).view.tag ≤ n → Q n) → ∀ mid bot, r = mid ++ bot → (∀ i ∈ l ++ mid, Q i.tag) →
          Rel (rest s base R) (St.serRead way t (s.enter (lid x))) ∧ Steps (s.enter (lid x)) (St.serRead way t (s.enter (lid x))) ∧ (St.serRead way t (s.enter (lid x))).mine = (s.enter (lid x)).mine ∧
          ∃ up, (St.serRead way t (s.enter (lid x))).view.items = up ++ bot ∧ ∀ i ∈ up, Q i.tag := by
        intro Q hQ mid bot er hq
        have h1 := RefTop.of (cell := false) (b' := g :: b ++ mid) (s := bot) (prot := false) hQ h.enter (.refl _) rfl rfl hu hl' (fun _ => any_unguarded _) (by simp) (by rw [er]; simp) (by
          intro i hi
          refine hq i ?_
          rw [el]
          simpa using hi)
        have h2 := h1.pass hQ way
        exact h2.read
      rw [← exit_same]
      cases hk : s.handle (lid x) with
      | none =>
        obtain ⟨k1, k2, k3, -⟩ := key (fun _ => True) (fun _ _ => trivial) r [] (List.append_nil _).symm fun _ _ => trivial
        exact h.exit k1 k2 _ (fun k e => by cases e) fun i k _ e => by cases e
      | some k =>
        obtain ⟨up, bot, er, hy⟩ := e4 k hk
        have hkt := (h.good.1 k hk).1
        obtain ⟨k1, k2, k3, up', k4, k5⟩ := key (fun n => n ≠ k) (fun n hn => Nat.ne_of_gt (Nat.lt_of_lt_of_le hkt hn)) up _ er hy
        refine h.exit k1 k2 _ ?_ ?_
        · rintro k' e
          obtain rfl := Option.some.inj e
          exact ⟨Nat.lt_of_lt_of_le hkt k2.tag, up', bot, k4, k5⟩
        · rintro i k' rfl e
          rw [k3]
          have := (h.good.2.2.1 i k rfl hk).1
          simp [St.enter, this, lid]
    · exact h
  · exact h

theorem serBegin_links (us : List UAct) (id : Nat) (s : St) : (s.serBegin cell us id).kid = s.kid ∧ (s.serBegin cell us id).par = s.par := by
  unfold St.serBegin
  split <;> exact ⟨rfl, rfl⟩

theorem serText_links (way : List Bool) (t : Option Nat) (id : Nat) (s : St) : (s.serText way t id).kid = s.kid ∧ (s.serText way t id).par = s.par := by
  unfold St.serText
  split
  · split <;> exact ⟨rfl, rfl⟩
  · exact ⟨rfl, rfl⟩

/-! ### No tag is there twice -/

theorem Uniq.lib {r : Run} (h : Uniq r.real) (a : Acc) : Uniq (r.lib a).real := h.act a

theorem Uniq.reb {r : Run} (h : Uniq r.real) (t : Nat) (prot : Bool) : Uniq (r.reb t prot).1.real := h.act (.reborrow .unique t prot)

theorem Uniq.ref {r : Run} (h : Uniq r.real) (t : Nat) (prot : Bool) : Uniq (r.ref cell t prot).1.real := h.act (.reborrow (sharedPerm cell) t (prot && !cell))

theorem Uniq.serBuilder {r : Run} (h : Uniq r.real) (t : Nat) : Uniq (St.serBuilder t r).real := Uniq.reb (r := (r.reb t false).1.lib .enter) ((h.reb t false).lib .enter) _ true

theorem Uniq.serVisitor {r : Run} (h : Uniq r.real) (t : Nat) : Uniq (St.serVisitor cell t r).real := Uniq.ref (r := (r.ref cell t false).1.lib .enter) ((h.ref t false).lib .enter) _ true

theorem Uniq.step {r : Run} (h : Uniq r.real) (u : UAct) : Uniq (r.step u).real := by
  cases u with
  | acc a =>
    simp only [Run.step]
    split
    · exact h
    · exact h.lib a
  | alloc =>
    simp only [Run.step]
    split
    · exact Uniq.alloc
    · exact h
  | free t =>
    simp only [Run.step]
    split
    · exact h.free t
    · exact h

theorem Uniq.user : ∀ (us : List UAct) {r : Run}, Uniq r.real → Uniq (r.user us).real
  | [], _, h => h
  | u :: us, r, h => Uniq.user us (r := r.step u) (h.step u)

theorem Uniq.userSelf (us : List UAct) {r : Run} (h : Uniq r.real) : Uniq (r.userSelf us).real := Uniq.user us (r := { r with view := _, mine := false }) h

theorem Uniq.keep (i : Item) : ∀ (us : List UAct) {r : Run}, Uniq r.real → Uniq (us.foldl (fun r u => if i ∈ (r.step u).view.items then r.step u else r) r).real
  | [], _, h => h
  | u :: us, r, h => by
    rw [List.foldl_cons]
    split
    · exact Uniq.keep i us (h.step u)
    · exact Uniq.keep i us h

theorem Uniq.userKeep (i : Item) (us : List UAct) {r : Run} (h : Uniq r.real) : Uniq (r.userKeep i us).real := Uniq.keep i us (r := { r with mine := false }) h

theorem Uniq.exit {s : St} {id : Nat} {r : Run} (h : Uniq r.real) : Uniq (s.exit id r).loc := ⟨h.nodup, h.lt⟩

theorem Uniq.call {s : St} (h : Uniq s.loc) (us : List UAct) (id : Nat) : Uniq (s.call St.serBuilder us id).loc := by
  unfold St.call
  split
  · exact Uniq.exit (Uniq.userSelf us (Uniq.serBuilder (h.enter id) _))
  · exact Uniq.exit (Uniq.user us ((h.enter id).lib _))

theorem Uniq.serBegin {s : St} (h : Uniq s.loc) (us : List UAct) (id : Nat) : Uniq (s.serBegin cell us id).loc := by
  unfold St.serBegin
  split
  · exact Uniq.exit (Uniq.userKeep _ us (Uniq.serVisitor (h.enter id) _))
  · exact Uniq.exit (Uniq.user us ((h.enter id).lib _))

theorem Uniq.pass {reb : Nat → Bool → Run → Run × Nat} (hr : ∀ (r : Run) t p, Uniq r.real → Uniq (reb t p r).1.real) (way : List Bool) {t : Nat} {r : Run} (h : Uniq r.real) : Uniq (r.pass reb way t).1.real :=
  pass_ind (reb := reb) (P := fun r _ _ => Uniq r.real) (fun _ t _ h => hr _ t true (h.lib .enter)) (fun _ t h => hr _ t false h) (fun r t _ h => hr _ t false (h.lib .leave)) way (t := t) h

theorem Uniq.serText {s : St} (h : Uniq s.loc) (way : List Bool) (t : Option Nat) (id : Nat) : Uniq (s.serText way t id).loc := by
  unfold St.serText
  split
  · split
    · rename_i t _
      refine Uniq.exit (Uniq.lib ?_ _)
      exact Uniq.pass (fun _ t p hr => hr.ref t p) way (Uniq.ref (cell := false) (h.enter id) t false)
    · exact h
  · exact h

theorem Uniq.point {s : St} (h : Uniq s.loc) {w : Bool} {conv : Nat → Run → Run × Nat} (hc : ∀ t r, Uniq r.real → Uniq (conv t r).1.real) (t id : Nat) : Uniq (s.point w conv t id).loc := by
  unfold St.point
  split
  · exact Uniq.exit (s := s) (id := id) (hc t (s.enter id) h)
  · exact h

theorem Uniq.serPoint {s : St} (h : Uniq s.loc) (way : List Bool) (t id : Nat) : Uniq (s.point cell (St.serConvVisitor cell way) t id).loc :=
  Uniq.point h (conv := St.serConvVisitor cell way) (fun t _ hr => Uniq.ref (Uniq.pass (fun _ t p hr => hr.ref t p) way (hr.ref t false)) _ _) t id

theorem Uniq.endKid {s : St} (h : Uniq s.loc) (id : Nat) : Uniq (s.endKid id).loc := by
  unfold St.endKid
  split <;> exact h

theorem Uniq.serDrop {s : St} (h : Uniq s.loc) (us : List UAct) (id : Nat) : Uniq (s.serDrop us id).loc := by
  unfold St.serDrop
  split
  · exact Uniq.free (Uniq.exit (s := s) (id := id) (Uniq.userSelf us (((h.enter id).lib .enter).reb _ _))) _
  · exact h.call us id

theorem Uniq.serMove {s : St} (h : Uniq s.loc) (id : Nat) : Uniq (s.serMove id).loc := by
  unfold St.serMove
  split
  · exact Uniq.exit (s := s) (id := id) ((h.enter id).reb _ _)
  · exact h

theorem Uniq.serStep {s : St} (h : Uniq s.loc) (retag : Bool) (C : SerSafe) (n : Nat) (o : Op) : Uniq (St.serStep retag C n o s).loc := by
  cases o with
  | callVisitor id => exact (h.serBegin _ id).serText _ _ id
  | callBuilder id => exact ((h.endKid id).call _ id).serText _ _ id
  | newVisitor id parent =>
    refine Uniq.serText ?_ _ _ id
    split
    · exact Uniq.serPoint (s := { s.share _ id parent with kid := _ }) h _ _ id
    · exact h
  | newBuilder id parent =>
    simp only [St.serStep]
    split
    · split
      · exact Uniq.point (s := St.share _ id parent { s with par := _, kid := _ }) h (conv := St.serConvBuilder _) (fun t r hr => Uniq.reb (Uniq.pass (fun _ t p hr => hr.reb t p) _ (hr.reb t false)) _ _) _ id
      · exact h
    · exact h
  | dropBuilder id => exact (h.endKid id).serDrop _ id
  | moveBuilder id =>
    simp only [St.serStep]
    split
    · exact h.serMove id
    · exact h

theorem Uniq.serInit (C : SerSafe) : Uniq (St.serInit C).loc := by
  unfold St.serInit
  cases C.start <;> exact ⟨by simp, by simp⟩

theorem Uniq.serRun (retag : Bool) (C : SerSafe) : ∀ h, Uniq (St.serRun retag C h).loc
  | [] => Uniq.serInit C
  | o :: h => (Uniq.serRun retag C h).serStep retag C h.length o

/-- The destructor of a builder. -/
theorem Core.serDrop {b : Nat} {R : List Live} {next : Nat} {base : List Item} {s : St} (h : Core (serK cell) strict (.builder b :: R) next base s) (us : List UAct) :
    ∃ base', Core (serK cell) strict (.builder b :: R) next base' (s.serDrop us b) := by
  unfold St.serDrop
  split
  · rename_i k hk
    obtain ⟨up, bot, hr⟩ := Core.ready (x := .builder b) h hk
    have hc := Core.lent (x := .builder b) h hk (Ready.serDrop hr) us
    obtain ⟨-, up', bot', e, -⟩ := hc.good.1 k hk
    have hm : hItem .unique k ∈ up' ++ hItem (serK cell (.builder b)) k :: bot' := by simp [serK]
    rw [← e] at hm
    exact ⟨[], Core.freed hc (k := k) hk (g := hItem .unique k) hm (grants_unique ..)⟩
  · exact ⟨base, h.method us _ fun hr => Ready.serBuilder hr⟩

/-- A builder is moved. -/
theorem Core.serMove {b : Nat} {R : List Live} {next : Nat} {base : List Item} {s : St} (h : Core (serK cell) strict (.builder b :: R) next base s) :
    Core (serK cell) strict (.builder b :: R) next base (s.serMove b) := by
  unfold St.serMove
  split
  · rename_i k hk
    obtain ⟨up, bot, hr⟩ := Core.ready (x := .builder b) h hk
    have hp := Ready.serMove hr
    refine h.exit hp.rel hp.steps _ ?_ ?_
    · intro k' e
      obtain rfl := Option.some.inj e
      obtain ⟨bot, e⟩ := hp.items
      exact ⟨hp.tag, [], bot, e, fun i hi => (List.not_mem_nil hi).elim⟩
    · intro i k' ei _
      obtain rfl : b = i := by simpa using ei
      have := (h.good.2.2.1 b k rfl hk).1
      have hm := hp.mine
      rw [show (lid (.builder b)) = b from rfl] at hm
      refine hm.trans ?_
      simp [St.enter, this]
  · exact h

/-- A visitor that has nothing to do with the location. -/
theorem Core.idle {v : Nat} {S : List Live} {next : Nat} {base : List Item} {s : St} (h : Core (serK cell) strict S next base s) (hv : s.views v = []) (hh : s.handle v = none) (ho : s.owner ≠ some v)
    (hn : v < next) (hd : ∀ y ∈ S, lid y ≠ v) : Core (serK cell) strict (.visitor v :: S) next base s := by
  refine ⟨?_, h.calls, h.ub, h.live, ?_, h.call, ⟨?_, ?_, ?_, ?_⟩, ?_, h.unused, ?_, ?_⟩
  · rw [rest_cons, show s.views (lid (.visitor v)) = [] from hv, List.nil_append]
    exact h.items
  · intro y hy i hi c hc
    rcases List.mem_cons.1 hy with rfl | hy
    · rw [show s.views (lid (.visitor v)) = [] from hv] at hi
      exact (List.not_mem_nil hi).elim
    · exact h.prots y hy i hi c hc
  · intro k hk
    rw [show s.handle (lid (.visitor v)) = none from hh] at hk; cases hk
  · exact fun e => absurd e ho
  · intro i k e; cases e
  · rw [show s.views (lid (.visitor v)) = [] from hv]
    exact h.good
  · intro o e
    obtain ⟨y, hy, ey⟩ := h.owner o e
    exact ⟨y, List.mem_cons_of_mem _ hy, ey⟩
  · rw [List.map_cons, List.nodup_cons]
    refine ⟨fun hm => ?_, h.nodup⟩
    obtain ⟨y, hy, ey⟩ := List.mem_map.1 hm
    exact hd y hy ey
  · intro y hy
    rcases List.mem_cons.1 hy with rfl | hy
    · exact hn
    · exact h.next y hy

theorem serMove_links (id : Nat) (s : St) : (s.serMove id).kid = s.kid ∧ (s.serMove id).par = s.par := by
  unfold St.serMove
  split <;> exact ⟨rfl, rfl⟩

/-- A builder is moved while the visitor it has returned is in use. -/
theorem Core.serMoveUnder {v b : Nat} {R : List Live} {next : Nat} {base : List Item} {s : St} (h : Core (serK cell) true (.visitor v :: .builder b :: R) next base s) :
    Core (serK cell) true (.visitor v :: .builder b :: R) next base (s.serMove b) := by
  cases hk : s.handle b with
  | none =>
    have e : s.serMove b = s := by simp only [St.serMove, hk]
    rw [e]; exact h
  | some k =>
    obtain ⟨g1, g2, g3, k1, k2, k3, k4⟩ := h.good
    obtain ⟨hown, hab⟩ := k3 b k rfl hk
    have hv : s.views v = [] := by simpa [lid] using hab rfl
    have hne : b ≠ v := fun e => Core.ne h _ (List.mem_cons_self ..) (by simpa [lid] using e)
    have hh : s.handle v = none := by
      cases hh : s.handle v with
      | none => rfl
      | some k =>
        obtain ⟨-, up, bot, e, -⟩ := g1 k hh
        rw [show s.views (lid (.visitor v)) = [] from hv] at e
        simp at e
    have ho : s.owner ≠ some v := by rw [hown]; simpa using hne
    have em : s.merge v b = s := by
      unfold St.merge
      rw [hv, List.nil_append, upd_same, if_neg ho]
    have hm : Core (serK cell) true (.builder b :: R) next base s := by
      have : Core (serK cell) true (.builder b :: R) next base (s.merge v b) := Core.merge (x := .visitor v) (y := .builder b) h
      rw [em] at this; exact this
    have hs := hm.serMove
    have hd := Core.ne h
    refine hs.idle ?_ ?_ ?_ (h.next (.visitor v) (List.mem_cons_self ..)) hd
    · simp only [St.serMove, hk, St.exit]
      rw [upd_ne _ _ hne.symm]; exact hv
    · simp only [St.serMove, hk, St.exit]
      rw [upd_ne _ _ hne.symm]; exact hh
    · intro e
      simp only [St.serMove, hk, St.exit, hown] at e
      split at e
      · exact hne (by simpa using e)
      · simp at e

theorem serDrop_links (us : List UAct) (id : Nat) (s : St) : (s.serDrop us id).kid = s.kid ∧ (s.serDrop us id).par = s.par := by
  unfold St.serDrop
  split
  · exact ⟨rfl, rfl⟩
  · exact call_links ..

theorem Inv.serStep {retag : Bool} {m : MonSt} {s : St} (C : SerSafe) (h : Inv (serK C.cell) retag m s) (hu : Uniq s.loc) (hC : retag = true → C.lendsFromBox = false) (n : Nat) (o : Op) (hok : (m.step o).ok = true) :
    Inv (serK C.cell) retag (m.step o) (St.serStep retag C n o s) := by
  obtain ⟨stack, next, ok⟩ := m
  obtain ⟨⟨base, hc⟩, hl, ht⟩ := h
  simp only at hc hl ht
  cases o with
  | callVisitor id =>
    match stack, hc, hl, ht, hok with
    | .visitor i :: R, hc, hl, ht, hok =>
      obtain rfl : i = id := by simp [MonSt.step] at hok; exact hok.2
      exact ⟨⟨base, Core.serText (x := .visitor i) (hc.serBegin hu _) (hu.serBegin _ i) _ _⟩, (hl.same (serBegin_links ..)).same (serText_links ..), (ht.same (serBegin_links ..)).same (serText_links ..)⟩
    | .builder i :: R, hc, hl, ht, hok => simp [MonSt.step] at hok
    | [], hc, hl, ht, hok => exact hl.elim
  | callBuilder id =>
    match stack, hc, hl, ht, hok with
    | .builder i :: R, hc, hl, ht, hok =>
      obtain rfl : i = id := by simp [MonSt.step] at hok; exact hok.2
      have e : St.serStep retag C n (.callBuilder i) s = (s.call St.serBuilder (C.acts n) i).serText (C.textWay n) (C.text n) i := by simp only [St.serStep, endKid_free ht]
      rw [e]
      exact ⟨⟨base, Core.serText (x := .builder i) (Core.method (x := .builder i) hc _ _ fun hr => Ready.serBuilder hr) (hu.call _ i) _ _⟩, (hl.same (call_links ..)).same (serText_links ..), (ht.same (call_links ..)).same (serText_links ..)⟩
    | .visitor v :: .builder i :: R, hc, hl, ht, hok =>
      obtain rfl : i = id := by simp [MonSt.step] at hok; exact hok.2
      obtain ⟨k1, k2, k3⟩ := endKid_inv hc hl
      exact ⟨⟨base, Core.serText (x := .builder i) (Core.method (x := .builder i) k1 _ _ fun hr => Ready.serBuilder hr) ((hu.endKid i).call _ i) _ _⟩, (k2.same (call_links ..)).same (serText_links ..), (k3.same (call_links ..)).same (serText_links ..)⟩
    | .visitor v :: .visitor i :: R, hc, hl, ht, hok => exact hl.elim
    | [.visitor v], hc, hl, ht, hok => simp [MonSt.step] at hok
    | [], hc, hl, ht, hok => exact hl.elim
  | dropBuilder id =>
    match stack, hc, hl, ht, hok with
    | .builder i :: R, hc, hl, ht, hok =>
      obtain rfl : i = id := by simp [MonSt.step] at hok; exact hok.2
      obtain ⟨base', hd⟩ := hc.serDrop (C.acts n)
      have lk := serDrop_links (C.acts n) i s
      obtain ⟨k1, k2, k3⟩ := drop_inv hd (hl.same lk)
      rw [lk.2] at k1 k2 k3
      have e : St.serStep retag C n (.dropBuilder i) s = (s.serDrop (C.acts n) i).merge i (s.par i) := by simp only [St.serStep, endKid_free ht]
      rw [e]
      exact ⟨⟨base', k1⟩, k2, k3⟩
    | .visitor v :: .builder i :: R, hc, hl, ht, hok =>
      obtain rfl : i = id := by simp [MonSt.step] at hok; exact hok.2
      obtain ⟨k1, k2, k3⟩ := endKid_inv hc hl
      obtain ⟨base', hd⟩ := k1.serDrop (C.acts n)
      have lk := serDrop_links (C.acts n) i (s.endKid i)
      obtain ⟨j1, j2, j3⟩ := drop_inv hd (k2.same lk)
      rw [lk.2] at j1 j2 j3
      have e : (s.endKid i).par = s.par := by
        unfold St.endKid
        split <;> rfl
      rw [e] at j1 j2 j3
      exact ⟨⟨base', j1⟩, j2, j3⟩
    | .visitor v :: .visitor i :: R, hc, hl, ht, hok => exact hl.elim
    | [.visitor v], hc, hl, ht, hok => simp [MonSt.step] at hok
    | [], hc, hl, ht, hok => exact hl.elim
  | moveBuilder id =>
    simp only [St.serStep]
    cases retag with
    | false =>
      simp only [Bool.false_eq_true, if_false]
      match stack, hc, hl, ht, hok with
      | .builder i :: R, hc, hl, ht, hok => exact ⟨⟨base, hc⟩, hl, ht⟩
      | .visitor v :: .builder i :: R, hc, hl, ht, hok => exact ⟨⟨base, hc⟩, hl, ht⟩
      | .visitor v :: .visitor i :: R, hc, hl, ht, hok => exact hl.elim
      | [.visitor v], hc, hl, ht, hok => simp [MonSt.step] at hok
      | [], hc, hl, ht, hok => exact hl.elim
    | true =>
      simp only [if_true]
      match stack, hc, hl, ht, hok with
      | .builder i :: R, hc, hl, ht, hok =>
        obtain rfl : i = id := by simp [MonSt.step] at hok; exact hok.2
        exact ⟨⟨base, hc.serMove⟩, hl.same (serMove_links ..), ht.same (serMove_links ..)⟩
      | .visitor v :: .builder i :: R, hc, hl, ht, hok =>
        obtain rfl : i = id := by simp [MonSt.step] at hok; exact hok.2
        exact ⟨⟨base, hc.serMoveUnder⟩, hl.same (serMove_links ..), ht.same (serMove_links ..)⟩
      | .visitor v :: .visitor i :: R, hc, hl, ht, hok => exact hl.elim
      | [.visitor v], hc, hl, ht, hok => simp [MonSt.step] at hok
      | [], hc, hl, ht, hok => exact hl.elim
  | newVisitor id parent =>
    match stack, hc, hl, ht, hok with
    | .builder i :: R, hc, hl, ht, hok =>
      obtain ⟨⟨-, rfl⟩, rfl⟩ : (ok = true ∧ i = parent) ∧ id = next := by simpa [MonSt.step] using hok
      have k1 : Core (serK C.cell) retag (.visitor id :: .builder i :: R) (id + 1) base (s.share (s.serCut C n i) id i) := Core.share (x := .builder i) (z := .visitor id) hc _ rfl (by
        intro st j k ej hk
        obtain rfl : i = j := by simpa using ej
        simp [St.serCut, hk, hC st])
      have k2 := k1.links (upd s.kid i (some id)) s.par
      have hl' : Linked { s.share (s.serCut C n i) id i with kid := upd s.kid i (some id) } (.visitor id :: .builder i :: R) := by
        refine ⟨upd_self .., Linked.congr hl (fun y hy => upd_ne _ _ ?_) fun _ _ => rfl⟩
        exact Core.ne (x := .builder i) hc y hy
      simp only [St.serStep]
      split
      · exact ⟨⟨base, Core.serText (x := .visitor id) (k2.serPoint hu _ _) (Uniq.serPoint (s := { s.share (s.serCut C n i) id i with kid := upd s.kid i (some id) }) hu _ _ id) _ _⟩, (hl'.same (point_links ..)).same (serText_links ..), trivial⟩
      · exact ⟨⟨base, Core.serText (x := .visitor id) k2 hu _ _⟩, hl'.same (serText_links ..), trivial⟩
    | .visitor i :: R, hc, hl, ht, hok => simp [MonSt.step] at hok
    | [], hc, hl, ht, hok => exact hl.elim
  | newBuilder id parent =>
    match stack, hc, hl, ht, hok with
    | .visitor i :: R, hc, hl, ht, hok =>
      obtain ⟨⟨-, rfl⟩, rfl⟩ : (ok = true ∧ i = parent) ∧ id = next := by simpa [MonSt.step] using hok
      have fresh : ∀ y ∈ Live.visitor i :: R, lid y ≠ id := fun y hy e => by have := hc.next y hy; omega
      have hc' := hc.links (upd s.kid id none) (upd s.par id i)
      have hl0 : Linked { s with par := upd s.par id i, kid := upd s.kid id none } (.visitor i :: R) :=
        Linked.congr hl (fun y hy => upd_ne _ _ (fresh y (List.mem_cons_of_mem _ hy))) fun y hy => upd_ne _ _ (fresh y hy)
      have hl' : Linked { s with par := upd s.par id i, kid := upd s.kid id none } (.builder id :: .visitor i :: R) := ⟨upd_self .., hl0⟩
      have ht' : TopFree { s with par := upd s.par id i, kid := upd s.kid id none } (.builder id :: .visitor i :: R) := upd_self ..
      simp only [St.serStep]
      have eo : { s with par := upd s.par id i, kid := upd s.kid id none }.owner = s.owner := rfl
      have ev : { s with par := upd s.par id i, kid := upd s.kid id none }.views = s.views := rfl
      have eh : { s with par := upd s.par id i, kid := upd s.kid id none }.handle = s.handle := rfl
      generalize { s with par := upd s.par id i, kid := upd s.kid id none } = s' at hl' ht' hc' eo ev eh ⊢
      have k1 : ∀ c, Core (serK C.cell) retag (.builder id :: .visitor i :: R) (id + 1) base (s'.share c id i) := fun c => Core.share (x := .visitor i) (z := .builder id) hc' _ rfl (fun _ _ _ e => by cases e)
      have lk : ∀ c, (s'.share c id i).kid = s'.kid ∧ (s'.share c id i).par = s'.par := fun c => ⟨rfl, rfl⟩
      split
      · split
        · rename_i hown
          refine ⟨⟨base, Core.point (z := .builder id) (k1 _) _ _ _ (fun hr hc ht => serConvBuilder_pointed _ hr hc ht) ?_⟩, (hl'.same (lk _)).same (point_links ..), (ht'.same (lk _)).same (point_links ..)⟩
          intro j ej
          obtain rfl : id = j := by simpa using ej
          simp [St.share, St.lendable, eo, ev, eh, hown.1, hown.2]
        · exact ⟨⟨base, k1 _⟩, hl'.same (lk _), ht'.same (lk _)⟩
      · exact ⟨⟨base, k1 _⟩, hl'.same (lk _), ht'.same (lk _)⟩
    | .builder i :: R, hc, hl, ht, hok => simp [MonSt.step] at hok
    | [], hc, hl, ht, hok => exact hl.elim

theorem ser_inv_init (C : SerSafe) : Inv (serK C.cell) strict ⟨[.visitor 0], 1, true⟩ (St.serInit C) := by
  refine ⟨?_, trivial, trivial⟩
  unfold St.serInit
  cases C.start with
  | unused => exact ⟨[], rfl, rfl, rfl, by simp, by simp, by simp, by simp [Good, lid, rest], by simp, by simp, by simp, by simp [lid]⟩
  | value =>
    refine ⟨[⟨1, sharedPerm C.cell, if C.cell then none else some 0⟩, ⟨0, .unique, none⟩], rfl, rfl, rfl, by simp, by simp [lid, upd], by simp, ⟨?_, by simp, by simp, trivial⟩, by simp, by simp, by simp, by simp [lid]⟩
    intro h e
    obtain rfl : 2 = h := by simpa [upd, lid] using e
    exact ⟨by simp, [], [], rfl, by simp⟩
  | reached =>
    exact ⟨[⟨0, .unique, none⟩], rfl, rfl, rfl, by simp, by simp [lid, upd], by simp, ⟨by simp, by simp, by simp, trivial⟩, by simp, by simp, by simp, by simp [lid]⟩
  | owned =>
    exact ⟨[], rfl, rfl, rfl, by simp, by simp [lid, upd], by simp, ⟨by simp, by simp [rest], by simp, trivial⟩, by simp, by simp, by simp, by simp [lid]⟩

theorem serRun_inv (retag : Bool) (C : SerSafe) (hC : retag = true → C.lendsFromBox = false) : ∀ (h : List Op), (h.foldr MonSt.step ⟨[.visitor 0], 1, true⟩).ok = true →
    Inv (serK C.cell) retag (h.foldr MonSt.step ⟨[.visitor 0], 1, true⟩) (St.serRun retag C h)
  | [], _ => ser_inv_init C
  | o :: h, hok => (serRun_inv retag C hC h (step_ok hok)).serStep C (Uniq.serRun retag C h) hC h.length o hok

/-- The stack discipline implies the aliasing rules. -/
theorem serNoViolation (retag : Bool) (m : Mon) (h : m.ok = true) : SerNoViolation retag (fun C => retag = true → C.lendsFromBox = false) m.history := fun C hC => by
  obtain ⟨base, hc⟩ := (serRun_inv retag C hC m.history h).core
  exact hc.ub

end Miniserde.SB
