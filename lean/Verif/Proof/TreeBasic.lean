import Verif.Spec.TreeBorrows

/-!
# Tree Borrows: basic facts
-/

namespace Miniserde.TB

/-- The reference can be read and written through. -/
def Perm.ok (g : Bool) : Perm → Prop
  | .reserved c => (c && g) = false
  | .reservedIM | .active | .cell => True
  | .frozen | .disabled => False

theorem Perm.child_ok {w g : Bool} : ∀ {p : Perm}, p.ok g → ∃ q, p.child w g = some q ∧ q.ok g
  | .reserved c, h => by
    cases w with
    | false => exact ⟨_, rfl, h⟩
    | true => simp only [Perm.ok] at h; simp [Perm.child, h, Perm.ok]
  | .reservedIM, _ => by cases w <;> exact ⟨_, rfl, trivial⟩
  | .active, _ => ⟨_, rfl, trivial⟩
  | .cell, _ => ⟨_, rfl, trivial⟩
  | .frozen, h => h.elim
  | .disabled, h => h.elim

theorem Perm.foreign_free (w : Bool) (p : Perm) : ∃ q, p.foreign w false = some q := by
  cases p <;> cases w <;> exact ⟨_, rfl⟩

theorem Perm.ok_mono {g g' : Bool} (h : g' = true → g = true) : ∀ {p : Perm}, p.ok g → p.ok g'
  | .reserved c, k => by
    simp only [Perm.ok] at k ⊢
    cases hg : g' with
    | false => simp
    | true => rw [h hg] at k; exact k
  | .reservedIM, _ => trivial
  | .active, _ => trivial
  | .cell, _ => trivial
  | .frozen, k => k
  | .disabled, k => k

theorem guarded_iff {cs : List Nat} {i : Item} : i.guarded cs = true ↔ ∃ c ∈ cs, i.prot = some c := by
  unfold Item.guarded
  cases i.prot <;> simp [eq_comm]

/-! ## What every operation does -/

namespace Loc

variable {l : Loc} {t : Tag}

theorem access_spec {e w : Bool} (h : (l.access e w t).ub = false) :
    l.ub = false ∧ l.has t = true ∧ (∀ i ∈ l.items, (i.after e w t l.calls).isSome = true) ∧
      l.access e w t = { l with items := l.items.map fun i => { i with perm := (i.after e w t l.calls).getD i.perm } } := by
  unfold access at h ⊢
  split at h
  · rename_i hc
    simp only [Bool.and_eq_true, List.all_eq_true] at hc
    exact ⟨h, hc.1, hc.2, by rw [if_pos (by simp only [Bool.and_eq_true, List.all_eq_true]; exact hc)]⟩
  · simp [bad] at h

theorem access_ok {e w : Bool} (h1 : l.has t = true) (h2 : ∀ i ∈ l.items, (i.after e w t l.calls).isSome = true) :
    l.access e w t = { l with items := l.items.map fun i => { i with perm := (i.after e w t l.calls).getD i.perm } } := by
  unfold access
  rw [if_pos (by simp only [Bool.and_eq_true, List.all_eq_true]; exact ⟨h1, h2⟩)]

theorem has_iff : l.has t = true ↔ l.live = true ∧ ∃ i ∈ l.items, i.tag = t := by simp [has]

end Loc

/-! ## A tag that can be used -/

/-- Numbers are fresh. -/
structure Fresh (l : Loc) : Prop where
  tags : ∀ i ∈ l.items, ∀ k ∈ i.tag, k < l.next
  prots : ∀ i ∈ l.items, ∀ c, i.prot = some c → c < l.call
  calls : ∀ c ∈ l.calls, c < l.call

end Miniserde.TB
