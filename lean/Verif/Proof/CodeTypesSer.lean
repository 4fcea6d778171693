import Verif.Proof.CodeTypes

set_option linter.unusedSimpArgs false

namespace Miniserde.Code

open Expand (Src Ns Lib Meaning)

section

variable {α : Type} {W : World α} {fs : List (Field α)}

theorem matches_chk {x : Expansion α} {e : Ex α} {l : List (Pat × Ex α)} {Γ : Ctx α} {t : RT α} : ((Ex.matches e (.ofList l)).judge W x Γ).chk t ↔
    (∃ s, (e.judge W x Γ).syn s ∧ (∀ a ∈ l, PatOk W s a.1) ∧ Exhaustive W s (l.map Prod.fst)) ∧ ∀ a ∈ l, (a.2.judge W x Γ).chk t := by
  rw [Ex.judge]
  simp only [arms_judge, List.forall_mem_map, List.map_map, Function.comp_def]

theorem seq_chk {x : Expansion α} {a b : Ex α} {Γ : Ctx α} {t : RT α} : ((Ex.seq a b).judge W x Γ).chk t ↔ (∃ s, (a.judge W x Γ).syn s) ∧ (b.judge W x Γ).chk t := by
  rw [Ex.judge]

theorem fields_map : fieldsOf W (serStruct fs) (.helper (str! "__Map")) = some [(str! "data", .ref false .target), (str! "state", .usize)] := rfl

theorem impl_map : Implements W (serStruct fs) true .serMap (.helper (str! "__Map")) :=
  ⟨_, _, _, _, by simp only [serStruct]; exact List.mem_cons_of_mem _ (List.mem_cons_of_mem _ List.mem_cons_self), rfl, rfl, fun _ => rfl⟩

/-- `fn begin`. -/
theorem serBegin_ok : FnOk W (serStruct fs) true .target .serialize serBeginFn := by
  rw [fnOk_iff (g := ⟨str! "begin", true, .ref, none, .fragment⟩) (by simp [sigs]) (by
    intro g' h hn
    simp only [sigs, List.mem_cons, List.not_mem_nil, or_false] at h
    exact h) rfl rfl rfl rfl]
  refine ⟨?_, ?_⟩
  · intro t ht
    simp only [Option.toList_none, List.nil_append, List.mem_singleton] at ht
    subst ht
    trivial
  refine ⟨_, ⟨rfl, .box (.helper (str! "__Map")), ⟨_, rfl, ⟨rfl, _, fields_map, ?_, ?_, ?_⟩, trivial⟩, .box impl_map trivial⟩, .refl _⟩
  · show ([str! "data", str! "state"] : List Bytes).Nodup
    decide
  · simp only [List.forall_mem_cons, List.not_mem_nil, false_imp_iff, implies_true, and_true]
    show str! "data" ∈ [str! "data", str! "state"] ∧ str! "state" ∈ [str! "data", str! "state"]
    decide
  · rw [flds_judge]
    intro g hg
    simp only [List.map_cons, List.map_nil, List.mem_cons, List.not_mem_nil, or_false] at hg
    rcases hg with rfl | rfl
    · exact ⟨.ref false .target, List.mem_cons_self, _, ⟨rfl, fun h => by cases h⟩, .refl _⟩
    · exact ⟨.usize, List.mem_cons_of_mem _ List.mem_cons_self, _, rfl, .refl _⟩

theorem mem_nextArms {n : Nat} {gs : List (Field α)} {a : Pat × Ex α} : a ∈ nextArms n gs →
    ∃ k, ∃ f ∈ gs, a = (.num k, someOf (.pair (cowBorrowed (.str f.wire)) (.ref false (.get (.get .self (str! "data")) f.ident)))) := by
  induction gs generalizing n with
  | nil => intro h; cases h
  | cons g gs ih =>
    rw [nextArms, List.mem_cons]
    rintro (rfl | h)
    · exact ⟨n, g, List.mem_cons_self, rfl⟩
    · obtain ⟨k, f, hf, e⟩ := ih h
      exact ⟨k, f, List.mem_cons_of_mem _ hf, e⟩

theorem nextArms_mem {n : Nat} {gs : List (Field α)} {f : Field α} (hf : f ∈ gs) :
    ∃ k, ((.num k, someOf (.pair (cowBorrowed (.str f.wire)) (.ref false (.get (.get .self (str! "data")) f.ident)))) : Pat × Ex α) ∈ nextArms n gs := by
  induction gs generalizing n with
  | nil => cases hf
  | cons g gs ih =>
    rw [nextArms]
    rcases List.mem_cons.1 hf with rfl | hf
    · exact ⟨n, List.mem_cons_self⟩
    · obtain ⟨k, h⟩ := ih (n := n + 1) hf
      exact ⟨k, List.mem_cons_of_mem _ h⟩

/-- `fn next`. -/
theorem next_ok (hW : W.decl = .strct (fs.map fun f => (f.ident, f.ty))) (hd : (fs.map Field.ident).Nodup) :
    FnOk W (serStruct fs) true (.helper (str! "__Map")) .serMap (nextFn fs) ↔ ∀ f ∈ fs, W.implements true .serialize f.ty ∧ W.sized true f.ty := by
  rw [fnOk_iff (g := ⟨str! "next", true, .mut, none, .option (.tuple (.cow .str) (.ref false (.dyn .serialize)))⟩) (by simp [sigs]) (by
    intro g' h hn
    simp only [sigs, List.mem_cons, List.not_mem_nil, or_false] at h
    exact h) rfl rfl rfl rfl]
  have hw : ∀ t ∈ (none : Option (RT α)).toList ++ [RT.option (.tuple (.cow .str) (.ref false (.dyn .serialize)))], Wf W true t := by
    intro t ht
    simp only [Option.toList_none, List.nil_append, List.mem_singleton] at ht
    subst ht
    exact ⟨⟨⟨trivial, trivial⟩, trivial, trivial⟩, trivial⟩
  have hfd : fieldsOf W (serStruct fs) .target = some (fs.map fun f => (f.ident, .user f.ty)) := by
    simp only [fieldsOf, hW, List.map_map]
    rfl
  simp only [nextFn]
  generalize hΓ : (⟨Recv.ty (.helper (str! "__Map")) .mut, _, _, _, _, _⟩ : Ctx α) = Γ
  have hs : Γ.self = some (.ref true (.helper (str! "__Map"))) := by rw [← hΓ]; rfl
  have hb : Γ.bounded = true := by rw [← hΓ]
  have hst : ∀ t, ((Ex.get .self (str! "state") : Ex α).judge W (serStruct fs) Γ).syn t ↔ t = .usize := by
    intro t
    constructor
    · rintro ⟨⟨s, h1, ds, h2, h3⟩, -⟩
      cases hs.symm.trans h1
      cases fields_map.symm.trans h2
      simp only [List.mem_cons, Prod.mk.injEq, List.not_mem_nil, or_false] at h3
      rcases h3 with ⟨h, -⟩ | ⟨-, h⟩
      · exact absurd h (by decide)
      · exact h
    · rintro rfl
      exact ⟨⟨_, hs, _, fields_map, List.mem_cons_of_mem _ List.mem_cons_self⟩, fun _ => trivial⟩
  rw [Ex.judge]
  simp only [hst, exists_eq_left]
  generalize hΔ : ({ Γ with vars := (str! "__state", RT.usize) :: Γ.vars } : Ctx α) = Δ
  have hs' : Δ.self = some (.ref true (.helper (str! "__Map"))) := by rw [← hΔ]; exact hs
  have hb' : Δ.bounded = true := by rw [← hΔ]; exact hb
  have hv : ∀ t, ((var (str! "__state") : Ex α).judge W (serStruct fs) Δ).syn t ↔ t = .usize := by
    intro s
    simp only [← hΔ, var, Ex.judge, pathJ, m_var, placed, value, List.find?_cons, beq_self_eq_true, Option.map_some, Option.some.injEq, Bool.false_eq_true, false_imp_iff, and_true]
    exact eq_comm
  have has : ((Ex.assign (.get .self (str! "state")) (.add (var (str! "__state")) (.num 1)) : Ex α).judge W (serStruct fs) Δ).syn .unit := by
    refine ⟨rfl, .usize, ?_, ?_, _, ⟨rfl, (hv _).2 rfl, rfl⟩, .refl _⟩
    · exact ⟨_, hs', _, fields_map, List.mem_cons_of_mem _ List.mem_cons_self⟩
    · exact ⟨_, hs', rfl, trivial⟩
  have hdata : ∀ f ∈ fs, ∀ t, ((Ex.get (.get .self (str! "data")) f.ident : Ex α).judge W (serStruct fs) Δ).place t ↔ t = .user f.ty := by
    intro f hf t
    constructor
    · rintro ⟨s, ⟨s', h1, ds, h2, h3⟩, ds', h4, h5⟩
      cases hs'.symm.trans h1
      cases fields_map.symm.trans h2
      simp only [List.mem_cons, Prod.mk.injEq, List.not_mem_nil, or_false] at h3
      rcases h3 with ⟨-, rfl⟩ | ⟨h, -⟩
      · cases hfd.symm.trans h4
        obtain ⟨g, hg, e⟩ := List.mem_map.1 h5
        obtain ⟨e1, rfl⟩ := Prod.mk.inj e
        rw [nodup_inj hd hg hf e1]
      · exact absurd h (by decide)
    · rintro rfl
      exact ⟨.ref false .target, ⟨_, hs', _, fields_map, List.mem_cons_self⟩, _, hfd, List.mem_map.2 ⟨f, hf, rfl⟩⟩
  have harm : ∀ f ∈ fs, ((someOf (.pair (cowBorrowed (.str f.wire)) (.ref false (.get (.get .self (str! "data")) f.ident))) : Ex α).judge W (serStruct fs) Δ).chk
      (.option (.tuple (.cow .str) (.ref false (.dyn .serialize)))) ↔ W.implements true .serialize f.ty ∧ W.sized true f.ty := by
    intro f hf
    constructor
    · rintro ⟨u, e, a, b, e', h1, h2⟩
      cases e
      cases e'
      obtain ⟨s, ⟨u, rfl, h3, -⟩, h4⟩ := h2
      rw [(hdata f hf _).1 h3, hb'] at h4
      cases h4 with
      | ref _ h hs => exact ⟨h, hs⟩
    · intro h
      refine ⟨_, rfl, _, _, rfl, ⟨_, ⟨_, rfl, _, rfl, .refl _⟩, .refl _⟩, _, ⟨_, rfl, (hdata f hf _).2 rfl, fun h => by cases h⟩, ?_⟩
      rw [hb']
      exact .ref false h.1 h.2
  rw [seq_chk, matches_chk]
  simp only [hv, exists_eq_left]
  constructor
  · rintro ⟨-, -, -, h⟩ f hf
    obtain ⟨k, hk⟩ := nextArms_mem (n := 0) hf
    exact (harm f hf).1 (h _ (List.mem_append_left _ hk))
  · intro h
    refine ⟨hw, ⟨_, has⟩, ⟨?_, ?_⟩, ?_⟩
    · intro p hp
      rcases List.mem_append.1 hp with hp | hp
      · obtain ⟨k, f, hf, rfl⟩ := mem_nextArms hp
        rfl
      · rw [List.mem_singleton] at hp
        subst hp
        trivial
    · refine .inl (List.mem_map.2 ⟨_, List.mem_append_right _ List.mem_cons_self, rfl⟩)
    · intro p hp
      rcases List.mem_append.1 hp with hp | hp
      · obtain ⟨k, f, hf, rfl⟩ := mem_nextArms hp
        exact (harm f hf).2 (h f hf)
      · rw [List.mem_singleton] at hp
        subst hp
        exact ⟨_, ⟨_, rfl⟩, .refl _⟩

end

section Enums

variable {α : Type} {W : World α} {vs : List Variant}

/-- The rest of the variants, in a `match` on a string. -/
theorem string_ok (hW : W.decl = .enm (vs.map Variant.ident)) : FnOk W (deEnum vs) false (.helper (str! "__Visitor")) .visitor (stringFn vs) := by
  rw [fnOk_iff (g := ⟨str! "string", false, .mut, some (.ref false .str), .result .unit⟩) (by simp [sigs]) (by
    intro g' h hn
    simp only [sigs, List.mem_cons, List.not_mem_nil, or_false] at h
    rcases h with rfl | rfl | rfl <;> first | rfl | simp [stringFn] at hn) rfl rfl rfl rfl]
  refine ⟨?_, ?_⟩
  · intro t ht
    simp only [Option.toList_some, List.cons_append, List.nil_append, List.mem_cons, List.not_mem_nil, or_false] at ht
    rcases ht with rfl | rfl
    · trivial
    · exact ⟨trivial, trivial⟩
  refine ⟨.target, ?_, ⟨.unit, rfl, .option .target, ?_, ?_, ?_⟩, ?_⟩
  · simp only [Ex.judge, arms_judge]
    refine ⟨⟨.ref false .str, ⟨rfl, fun h => by cases h⟩, ?_, ?_⟩, ?_⟩
    · intro a ha
      obtain ⟨p, hp, rfl⟩ := List.mem_map.1 ha
      rcases List.mem_append.1 hp with hp | hp
      · obtain ⟨f, hf, rfl⟩ := List.mem_map.1 hp
        rfl
      · rw [List.mem_singleton] at hp
        subst hp
        trivial
    · refine .inl ?_
      rw [List.map_map, List.mem_map]
      exact ⟨_, List.mem_append_right _ List.mem_cons_self, rfl⟩
    · intro a ha
      obtain ⟨p, hp, rfl⟩ := List.mem_map.1 ha
      rcases List.mem_append.1 hp with hp | hp
      · obtain ⟨v, hv, rfl⟩ := List.mem_map.1 hp
        simp only [Ex.judge, pathJ, m_variant, value, hW, true_and]
        exact List.mem_map_of_mem hv
      · rw [List.mem_singleton] at hp
        subst hp
        exact ⟨_, ⟨.unit, rfl, _, rfl, .refl _⟩, .refl _⟩
  · exact ⟨_, rfl, _, rfl, List.mem_cons_self⟩
  · exact ⟨_, rfl, rfl, trivial⟩
  · exact ⟨_, rfl, _, ⟨rfl, fun h => by cases h⟩, .refl _⟩
  · exact ⟨_, rfl, _, rfl, .refl _⟩

theorem impl_visitor_enum : Implements W (deEnum vs) false .visitor (.helper (str! "__Visitor")) :=
  ⟨_, _, _, _, by simp only [deEnum]; exact List.mem_cons_of_mem _ (List.mem_cons_of_mem _ List.mem_cons_self), rfl, rfl, fun h => by cases h⟩

/-- `fn begin` of an enum. -/
theorem begin_enum_ok (hW : W.decl = .enm (vs.map Variant.ident)) : FnOk W (deEnum vs) false .target .deserialize (beginFn (.name (.helper (str! "__Visitor")))) := by
  rw [fnOk_iff (g := ⟨str! "begin", true, .no, some (.ref true (.option .target)), .ref true (.dyn .visitor)⟩) (by simp [sigs]) (by
    intro g' h hn
    simp only [sigs, List.mem_cons, List.not_mem_nil, or_false] at h
    rcases h with rfl | rfl <;> first | rfl | simp [beginFn] at hn) rfl rfl rfl rfl]
  refine ⟨?_, ?_⟩
  · intro t ht
    simp only [Option.toList_some, List.cons_append, List.nil_append, List.mem_cons, List.not_mem_nil, or_false] at ht
    rcases ht with rfl | rfl
    · refine ⟨trivial, ?_⟩
      simp only [Sized, hW]
    · trivial
  refine ⟨.ref true (.helper (str! "__Visitor")), ⟨_, rfl, .inr ⟨⟨rfl, .ptr (.option .target), ⟨rfl, .ref true (.option .target), ⟨rfl, ?_⟩, .ref _⟩, .ptr trivial trivial⟩, rfl⟩, fun _ => .inr ⟨_, ⟨rfl, .ptr (.option .target), ⟨rfl, .ref true (.option .target), ⟨rfl, ?_⟩, .ref _⟩, .ptr trivial trivial⟩, rfl⟩⟩, .ref true impl_visitor_enum trivial⟩
  all_goals (intro h; cases h)

/-- `fn begin` of an enum, for `Serialize`: there must be a variant. -/
theorem serEnum_ok (hW : W.decl = .enm (vs.map Variant.ident)) : FnOk W (serEnum vs) false .target .serialize (serEnumFn vs) ↔ vs ≠ [] := by
  rw [fnOk_iff (g := ⟨str! "begin", true, .ref, none, .fragment⟩) (by simp [sigs]) (by
    intro g' h hn
    simp only [sigs, List.mem_cons, List.not_mem_nil, or_false] at h
    exact h) rfl rfl rfl rfl]
  have hself : ∀ s, ((Ex.self : Ex α).judge W (serEnum vs) ⟨Recv.ty .target .ref, .target, [], .fragment, false, false⟩).syn s ↔ s = .ref false .target := by
    intro s
    constructor
    · rintro ⟨h, -⟩
      exact (Option.some.inj h).symm
    · rintro rfl
      exact ⟨rfl, fun h => by cases h⟩
  simp only [serEnumFn]
  rw [Ex.judge]
  simp only [arms_judge, hself, exists_eq_left]
  constructor
  · rintro ⟨-, ⟨-, h | h⟩, -⟩ e
    · subst e
      cases h
    · simp only [hW] at h
      exact h.1 (by rw [e]; rfl)
  · intro h
    refine ⟨?_, ⟨?_, .inr ?_⟩, ?_⟩
    · intro t ht
      simp only [Option.toList_none, List.nil_append, List.mem_singleton] at ht
      subst ht
      trivial
    · intro a ha
      obtain ⟨p, hp, rfl⟩ := List.mem_map.1 ha
      obtain ⟨v, hv, rfl⟩ := List.mem_map.1 hp
      refine ⟨rfl, ?_⟩
      simp only [hW]
      exact List.mem_map_of_mem hv
    · simp only [hW]
      refine ⟨fun e => h (List.map_eq_nil_iff.1 e), fun v hv => ?_⟩
      obtain ⟨w, hw, rfl⟩ := List.mem_map.1 hv
      simp only [List.map_map]
      exact List.mem_map.2 ⟨w, hw, rfl⟩
    · intro a ha
      obtain ⟨p, hp, rfl⟩ := List.mem_map.1 ha
      obtain ⟨v, hv, rfl⟩ := List.mem_map.1 hp
      exact ⟨_, ⟨rfl, _, ⟨_, rfl, _, rfl, .refl _⟩, .refl _⟩, .refl _⟩

end Enums

end Miniserde.Code
