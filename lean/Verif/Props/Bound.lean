import Verif.Spec.Bound

/-!
# The generics of the generated impls
-/

namespace Miniserde

theorem mem_typeParams {g : Generics} {n : Bytes} : n ∈ g.typeParams ↔ ∃ p ∈ g.params, p.isType = true ∧ p.name = n := by
  unfold Generics.typeParams
  rw [List.mem_filterMap]
  constructor
  · rintro ⟨p, hp, e⟩
    cases p with
    | type m bs => cases e; exact ⟨_, hp, rfl, rfl⟩
    | lifetime m bs => cases e
    | const m t => cases e
  · rintro ⟨p, hp, h1, rfl⟩
    cases p with
    | type m bs => exact ⟨_, hp, rfl⟩
    | lifetime m bs => cases h1
    | const m t => cases h1

theorem holds_where {I : Inst} {g : Generics} {trait : Bytes} :
    (∀ w ∈ whereClauseWithBound g trait, I.pred w) ↔
      (∀ w ∈ g.whereClause.getD [], I.pred w) ∧ ∀ p ∈ g.params, p.isType = true → I.implements p.name trait := by
  unfold whereClauseWithBound
  constructor
  · intro h
    refine ⟨fun w hw => h w (List.mem_append_left _ hw), fun p hp ht => ?_⟩
    exact h (.bound p.name (.trait trait)) (List.mem_append_right _ (List.mem_map.2 ⟨p.name, mem_typeParams.2 ⟨p, hp, ht, rfl⟩, rfl⟩))
  · rintro ⟨h1, h2⟩ w hw
    rcases List.mem_append.1 hw with hw | hw
    · exact h1 w hw
    · obtain ⟨n, hn, rfl⟩ := List.mem_map.1 hw
      obtain ⟨p, hp, ht, rfl⟩ := mem_typeParams.1 hn
      exact h2 p hp ht

theorem param_addBound {I : Inst} {l : Bytes} {p : GParam} : I.param (addBound l p) ↔
    I.param p ∧ (p.isLifetime = true → I.outlives p.name l) ∧ (p.isType = true → I.tyOutlives p.name l) := by
  cases p with
  | lifetime n bs => simp [addBound, Inst.param, GParam.isLifetime, GParam.isType, GParam.name, or_imp, forall_and]
  | type n bs => simp [addBound, Inst.param, GParam.isLifetime, GParam.isType, GParam.name, or_imp, forall_and, Inst.bound]
  | const n t => simp [addBound, Inst.param, GParam.isLifetime, GParam.isType]

/-- **C49.** A derived impl applies exactly when the struct itself may be used and every type parameter implements the trait: no bound of
the user is lost, and nothing else is required (nothing about lifetime and const parameters, nothing about field types). -/
theorem C49_impl (g : Generics) (trait : Bytes) (I : Inst) :
    I.holds (genGenerics g trait).impl ↔ I.holds g ∧ ∀ p ∈ g.params, p.isType = true → I.implements p.name trait := by
  unfold genGenerics Inst.holds
  simp only [Option.getD_some, holds_where]
  exact ⟨fun h => ⟨⟨h.1, h.2.1⟩, h.2.2⟩, fun h => ⟨h.1.1, h.1.2, h.2⟩⟩

/-- **C49.** The helper struct behind a reference `&'__a mut Option<Name>` / `&'__a Name` may be used exactly when the struct may and all its lifetime and type
parameters outlive `'__a` (as the reference needs); its impl needs the trait bounds in addition. -/
theorem C49_wrapper (g : Generics) (trait : Bytes) (I : Inst) :
    (I.holds (genGenerics g trait).wrapperStruct ↔
      I.holds g ∧ ∀ p ∈ g.params, (p.isLifetime = true → I.outlives p.name (str! "'__a")) ∧ (p.isType = true → I.tyOutlives p.name (str! "'__a"))) ∧
    (I.holds (genGenerics g trait).wrapperImpl ↔
      I.holds (genGenerics g trait).wrapperStruct ∧ ∀ p ∈ g.params, p.isType = true → I.implements p.name trait) := by
  have hp : (∀ p ∈ (withLifetimeBound g (str! "'__a")).params, I.param p) ↔
      ∀ p ∈ g.params, I.param p ∧ (p.isLifetime = true → I.outlives p.name (str! "'__a")) ∧ (p.isType = true → I.tyOutlives p.name (str! "'__a")) := by
    unfold withLifetimeBound
    constructor
    · intro h p hp
      exact param_addBound.1 (h _ (List.mem_cons_of_mem _ (List.mem_map.2 ⟨p, hp, rfl⟩)))
    · intro h p hp
      rcases List.mem_cons.1 hp with rfl | hp
      · intro l hl; cases hl
      · obtain ⟨q, hq, rfl⟩ := List.mem_map.1 hp
        exact param_addBound.2 (h q hq)
  constructor
  · unfold genGenerics Inst.holds
    simp only [hp]
    exact ⟨fun h => ⟨⟨fun p hp => (h.1 p hp).1, h.2⟩, fun p hp => (h.1 p hp).2⟩, fun h => ⟨fun p hp => ⟨h.1.1 p hp, h.2 p hp⟩, h.1.2⟩⟩
  · unfold genGenerics Inst.holds
    simp only [Option.getD_some, holds_where]
    exact ⟨fun h => ⟨⟨h.1, h.2.1⟩, h.2.2⟩, fun h => ⟨h.1.1, h.1.2, h.2⟩⟩

/-- **C49.** The parameters of the helper struct are `'__a` and those of the user's struct, in order, each of the same kind; lifetimes still
come first, and if the user has no parameter called `'__a`, names stay distinct. -/
theorem C49_params (g : Generics) (trait : Bytes) :
    (genGenerics g trait).wrapperStruct.params.map GParam.name = str! "'__a" :: g.params.map GParam.name ∧
    (genGenerics g trait).wrapperStruct.params.map GParam.isLifetime = true :: g.params.map GParam.isLifetime ∧
    (genGenerics g trait).wrapperStruct.params.map GParam.isType = false :: g.params.map GParam.isType ∧
    (genGenerics g trait).wrapperImpl.params = (genGenerics g trait).wrapperStruct.params ∧
    (Ordered g.params → Ordered (genGenerics g trait).wrapperStruct.params) ∧
    (str! "'__a" ∉ g.params.map GParam.name → (g.params.map GParam.name).Nodup →
      ((genGenerics g trait).wrapperStruct.params.map GParam.name).Nodup) := by
  have hn : (genGenerics g trait).wrapperStruct.params.map GParam.name = str! "'__a" :: g.params.map GParam.name := by
    show GParam.name _ :: _ = _
    congr 1
    rw [List.map_map]
    exact List.map_congr_left fun p _ => by cases p <;> rfl
  refine ⟨hn, ?_, ?_, rfl, ?_, ?_⟩
  · show GParam.isLifetime _ :: _ = _
    congr 1
    rw [List.map_map]
    exact List.map_congr_left fun p _ => by cases p <;> rfl
  · show GParam.isType _ :: _ = _
    congr 1
    rw [List.map_map]
    exact List.map_congr_left fun p _ => by cases p <;> rfl
  · intro h
    refine List.Pairwise.cons (fun _ _ _ => rfl) ?_
    rw [List.pairwise_map]
    exact h.imp fun {p q} hpq => by
      have e : ∀ p : GParam, (addBound (str! "'__a") p).isLifetime = p.isLifetime := fun p => by cases p <;> rfl
      rw [e, e]; exact hpq
  · intro h1 h2
    rw [hn]
    exact List.nodup_cons.2 ⟨h1, h2⟩

/-! ## Instance -/

/-- `struct S<'b, T: Copy, const N: usize> where Vec<T>: Debug`. -/
def exGenerics : Generics :=
  ⟨[.lifetime (str! "'b") [], .type (str! "T") [.trait (str! "Copy")], .const (str! "N") (str! "usize")], some [.other (str! "Vec<T>: Debug")]⟩

example : genGenerics exGenerics (str! "miniserde::Serialize") =
    { impl := ⟨exGenerics.params, some [.other (str! "Vec<T>: Debug"), .bound (str! "T") (.trait (str! "miniserde::Serialize"))]⟩
      wrapperStruct := ⟨[.lifetime (str! "'__a") [], .lifetime (str! "'b") [str! "'__a"],
        .type (str! "T") [.trait (str! "Copy"), .lifetime (str! "'__a")], .const (str! "N") (str! "usize")], some [.other (str! "Vec<T>: Debug")]⟩
      wrapperImpl := ⟨[.lifetime (str! "'__a") [], .lifetime (str! "'b") [str! "'__a"],
        .type (str! "T") [.trait (str! "Copy"), .lifetime (str! "'__a")], .const (str! "N") (str! "usize")],
        some [.other (str! "Vec<T>: Debug"), .bound (str! "T") (.trait (str! "miniserde::Serialize"))]⟩ } := rfl

example : Ordered exGenerics.params ∧ (exGenerics.params.map GParam.name).Nodup ∧ str! "'__a" ∉ exGenerics.params.map GParam.name := by
  refine ⟨?_, by decide, by decide⟩
  simp [Ordered, exGenerics, GParam.isLifetime]

end Miniserde
