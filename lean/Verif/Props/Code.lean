import Verif.Proof.CodeTypesSer
import Verif.Proof.CodeNames
import Verif.Props.Expand

/-!
# Properties of the generated code
-/

namespace Miniserde.Code

open Expand (Src Ns Lib Tm Site Scope)

/-- Derived `Deserialize` of a struct type-checks exactly if every field has a `Sized` type that implements `Deserialize` under the derived bounds, and none is named `__out`. -/
theorem C89_struct_de {α : Type} (W : World α) (fs : List (Field α)) (hW : W.decl = .strct (fs.map fun f => (f.ident, f.ty))) (hd : (fs.map Field.ident).Nodup)
    (hb : ∀ a, W.sized false a → W.sized true a) :
    Compiles W (deStruct fs) ↔ str! "__out" ∉ fs.map Field.ident ∧ ∀ f ∈ fs, W.sized false f.ty ∧ W.implements true .deserialize f.ty := by
  have hsz : ∀ b, Sized W b (.target : RT α) ↔ ∀ f ∈ fs, W.sized b f.ty := by
    intro b
    simp only [Sized, hW, List.forall_mem_map]
  have hnd : (((fs.map fun f => (f.ident, optionOf (.user f.ty))) ++ [(str! "__out", .ref true (optionOf (.applied .ident)))] : List (Bytes × TyX α)).map Prod.fst).Nodup ↔
      str! "__out" ∉ fs.map Field.ident := by
    rw [List.map_append, List.map_map]
    show (fs.map Field.ident ++ [str! "__out"]).Nodup ↔ _
    rw [List.nodup_append]
    constructor
    · rintro ⟨-, -, h⟩ hm
      exact h _ hm _ List.mem_cons_self rfl
    · intro h
      refine ⟨hd, by simp, ?_⟩
      intro a ha b hb' e
      rw [List.mem_singleton] at hb'
      exact h (hb' ▸ e ▸ ha)
  constructor
  · rintro ⟨-, h⟩
    obtain ⟨h4, h4'⟩ := h _ (List.mem_cons_of_mem _ (List.mem_cons_of_mem _ (List.mem_cons_of_mem _ List.mem_cons_self)))
    have ho := hnd.1 h4
    obtain ⟨l, self, hl, hs, -, -, -, hf⟩ := h _ (List.mem_cons_of_mem _ (List.mem_cons_of_mem _ (List.mem_cons_self)))
    obtain rfl := Option.some.inj (show some (RT.helper (str! "__Visitor")) = some self from hs)
    obtain rfl : Lib.visitor = l := by injection hl
    have hm := (map_ok hd ho).1 (hf _ List.mem_cons_self)
    refine ⟨ho, fun f hf => ⟨?_, hm f hf⟩⟩
    obtain ⟨t, ht, hwf, -⟩ := h4' (f.ident, optionOf (.user f.ty)) (List.mem_append_left _ (List.mem_map_of_mem hf))
    obtain rfl := Option.some.inj (show some (RT.option (.user f.ty)) = some t from ht)
    exact hwf.2
  · rintro ⟨ho, h⟩
    have sf := (hsz false).2 fun f hf => (h f hf).1
    have st := (hsz true).2 fun f hf => hb _ (h f hf).1
    refine ⟨rfl, fun i hi => ?_⟩
    simp only [deStruct, List.mem_cons, List.not_mem_nil, or_false] at hi
    rcases hi with rfl | rfl | rfl | rfl | rfl
    · refine ⟨by simp, fun f hf => ?_⟩
      rw [List.mem_singleton] at hf
      subst hf
      exact ⟨.option .target, rfl, ⟨trivial, sf⟩, trivial⟩
    · refine ⟨.deserialize, .target, rfl, rfl, fun _ => st, by simp, ?_, ?_⟩
      · intro g hg hr
        simp only [sigs, List.mem_cons, List.not_mem_nil, or_false] at hg
        rcases hg with rfl | rfl
        · exact List.mem_cons_self
        · cases hr
      · intro fn hf
        rw [List.mem_singleton] at hf
        subst hf
        exact begin_ok st
    · refine ⟨.visitor, .helper (str! "__Visitor"), rfl, rfl, fun e => (by cases e), by simp, ?_, ?_⟩
      · intro g hg hr
        simp only [sigs, List.mem_cons, List.not_mem_nil, or_false] at hg
        rcases hg with rfl | rfl | rfl <;> cases hr
      · intro fn hf
        rw [List.mem_singleton] at hf
        subst hf
        exact (map_ok hd ho).2 fun f hf => (h f hf).2
    · refine ⟨hnd.2 ho, fun f hf => ?_⟩
      rcases List.mem_append.1 hf with hf | hf
      · obtain ⟨g, hg, rfl⟩ := List.mem_map.1 hf
        exact ⟨.option (.user g.ty), rfl, ⟨trivial, (h g hg).1⟩, trivial⟩
      · rw [List.mem_singleton] at hf
        subst hf
        exact ⟨.ref true (.option .target), rfl, ⟨trivial, sf⟩, trivial⟩
    · refine ⟨.deMap, .helper (str! "__State"), rfl, rfl, fun e => (by cases e), show ([str! "key", str! "finish"] : List Bytes).Nodup by decide, ?_, ?_⟩
      · intro g hg _
        simp only [sigs, List.mem_cons, List.not_mem_nil, or_false] at hg
        rcases hg with rfl | rfl
        · exact List.mem_cons_self
        · exact List.mem_cons_of_mem _ List.mem_cons_self
      · intro fn hf
        simp only [List.mem_cons, List.not_mem_nil, or_false] at hf
        rcases hf with rfl | rfl
        · exact (key_ok hd ho).2 fun f hf => (h f hf).2
        · exact finish_ok hW hd ho

/-- Derived `Serialize` of a struct type-checks exactly if every field has a `Sized` type that implements `Serialize` under the derived bounds. -/
theorem C89_struct_ser {α : Type} (W : World α) (fs : List (Field α)) (hW : W.decl = .strct (fs.map fun f => (f.ident, f.ty))) (hd : (fs.map Field.ident).Nodup) :
    Compiles W (serStruct fs) ↔ ∀ f ∈ fs, W.implements true .serialize f.ty ∧ W.sized true f.ty := by
  constructor
  · rintro ⟨-, h⟩
    obtain ⟨l, self, hl, hs, -, -, -, hf⟩ := h _ (List.mem_cons_of_mem _ (List.mem_cons_of_mem _ (List.mem_cons_self)))
    obtain rfl := Option.some.inj (show some (RT.helper (str! "__Map")) = some self from hs)
    obtain rfl : Lib.serMap = l := by injection hl
    exact (next_ok hW hd).1 (hf _ List.mem_cons_self)
  · intro h
    refine ⟨rfl, fun i hi => ?_⟩
    simp only [serStruct, List.mem_cons, List.not_mem_nil, or_false] at hi
    rcases hi with rfl | rfl | rfl
    · refine ⟨.serialize, .target, rfl, rfl, fun e => (by cases e), by simp, ?_, ?_⟩
      · intro g hg _
        simp only [sigs, List.mem_cons, List.not_mem_nil, or_false] at hg
        subst hg
        exact List.mem_cons_self
      · intro fn hf
        rw [List.mem_singleton] at hf
        subst hf
        exact serBegin_ok
    · refine ⟨show ([str! "data", str! "state"] : List Bytes).Nodup by decide, fun f hf => ?_⟩
      simp only [List.mem_cons, List.not_mem_nil, or_false] at hf
      rcases hf with rfl | rfl
      · exact ⟨.ref false .target, rfl, trivial, trivial⟩
      · exact ⟨.usize, rfl, trivial, trivial⟩
    · refine ⟨.serMap, .helper (str! "__Map"), rfl, rfl, fun e => (by cases e), by simp, ?_, ?_⟩
      · intro g hg _
        simp only [sigs, List.mem_cons, List.not_mem_nil, or_false] at hg
        subst hg
        exact List.mem_cons_self
      · intro fn hf
        rw [List.mem_singleton] at hf
        subst hf
        exact (next_ok hW hd).2 h

/-- Derived `Deserialize` of an enum always type-checks. -/
theorem C89_enum_de {α : Type} (W : World α) (vs : List Variant) (hW : W.decl = .enm (vs.map Variant.ident)) : Compiles W (deEnum vs) := by
  refine ⟨rfl, fun i hi => ?_⟩
  have sz : ∀ b, Sized W b (.target : RT α) := fun b => by simp only [Sized, hW]
  simp only [deEnum, List.mem_cons, List.not_mem_nil, or_false] at hi
  rcases hi with rfl | rfl | rfl
  · refine ⟨by simp, fun f hf => ?_⟩
    rw [List.mem_singleton] at hf
    subst hf
    exact ⟨.option .target, rfl, ⟨trivial, sz _⟩, trivial⟩
  · refine ⟨.deserialize, .target, rfl, rfl, fun _ => sz _, by simp, ?_, ?_⟩
    · intro g hg hr
      simp only [sigs, List.mem_cons, List.not_mem_nil, or_false] at hg
      rcases hg with rfl | rfl
      · exact List.mem_cons_self
      · cases hr
    · intro fn hf
      rw [List.mem_singleton] at hf
      subst hf
      exact begin_enum_ok hW
  · refine ⟨.visitor, .helper (str! "__Visitor"), rfl, rfl, fun e => (by cases e), by simp, ?_, ?_⟩
    · intro g hg hr
      simp only [sigs, List.mem_cons, List.not_mem_nil, or_false] at hg
      rcases hg with rfl | rfl | rfl <;> cases hr
    · intro fn hf
      rw [List.mem_singleton] at hf
      subst hf
      exact string_ok hW

/-- Derived `Serialize` of an enum type-checks exactly if it has a variant: `match self {}` with `self` a reference is rejected. -/
theorem C89_enum_ser {α : Type} (W : World α) (vs : List Variant) (hW : W.decl = .enm (vs.map Variant.ident)) : Compiles W (serEnum vs) ↔ vs ≠ [] := by
  constructor
  · rintro ⟨-, h⟩
    obtain ⟨l, self, hl, hs, -, -, -, hf⟩ := h _ List.mem_cons_self
    obtain rfl := Option.some.inj (show some RT.target = some self from hs)
    obtain rfl : Lib.serialize = l := by injection hl
    exact (serEnum_ok hW).1 (hf _ List.mem_cons_self)
  · intro h
    refine ⟨rfl, fun i hi => ?_⟩
    simp only [serEnum, List.mem_cons, List.not_mem_nil, or_false] at hi
    subst hi
    refine ⟨.serialize, .target, rfl, rfl, fun e => (by cases e), by simp, ?_, ?_⟩
    · intro g hg _
      simp only [sigs, List.mem_cons, List.not_mem_nil, or_false] at hg
      subst hg
      exact List.mem_cons_self
    · intro fn hf
      rw [List.mem_singleton] at hf
      subst hf
      exact (serEnum_ok hW).2 h

/-- What a macro expands to when the input is rejected is an error together with an impl that type-checks whatever the type is (for `Deserialize`: if it is `Sized`), so that the error is the only one. -/
theorem C89_fallback {α : Type} (W : World α) :
    ¬ Compiles W (serFallback : Expansion α) ∧ ItemsOk W (serFallback : Expansion α) ∧
    ¬ Compiles W (deFallback : Expansion α) ∧ (ItemsOk W (deFallback : Expansion α) ↔ Sized W false (.target : RT α)) := by
  refine ⟨fun h => Bool.noConfusion h.1, fun i hi => ?_, fun h => Bool.noConfusion h.1, fun h => ?_, fun h i hi => ?_⟩
  · rw [serFallback, List.mem_singleton] at hi
    subst hi
    refine ⟨.serialize, .target, rfl, rfl, fun e => (by cases e), by simp, ?_, ?_⟩
    · intro g hg _
      simp only [sigs, List.mem_cons, List.not_mem_nil, or_false] at hg
      subst hg
      exact List.mem_cons_self
    · intro fn hf
      rw [List.mem_singleton] at hf
      subst hf
      refine ⟨_, List.mem_cons_self, rfl, rfl, rfl, rfl, ?_, .fragment, trivial, .refl _⟩
      intro t ht
      simp only [Option.toList_none, List.nil_append, List.mem_singleton] at ht
      subst ht
      trivial
  · obtain ⟨l, self, hl, hs, hz, -⟩ := h _ List.mem_cons_self
    obtain rfl := Option.some.inj (show some RT.target = some self from hs)
    obtain rfl : Lib.deserialize = l := by injection hl
    exact hz rfl
  · rw [deFallback, List.mem_singleton] at hi
    subst hi
    refine ⟨.deserialize, .target, rfl, rfl, fun _ => h, by simp, ?_, ?_⟩
    · intro g hg hr
      simp only [sigs, List.mem_cons, List.not_mem_nil, or_false] at hg
      rcases hg with rfl | rfl
      · exact List.mem_cons_self
      · cases hr
    · intro fn hf
      rw [List.mem_singleton] at hf
      subst hf
      refine ⟨_, List.mem_cons_self, rfl, rfl, rfl, rfl, ?_, .ref true (.dyn .visitor), trivial, .refl _⟩
      intro t ht
      simp only [Option.toList_some, List.cons_append, List.nil_append, List.mem_cons, List.not_mem_nil, or_false] at ht
      rcases ht with rfl | rfl
      · exact ⟨trivial, h⟩
      · trivial

/-- The names in the generated code are those that C87 speaks about, in the same scopes. -/
theorem C89_names (S : Site) (d : Expand.Struct) (wires : List Bytes) (h : wires.length = d.fields.length) :
    (d.Hygienic S ((deStruct (namedFields d wires)).names d (str! "Deserialize")) ↔ d.DeFits S) ∧
    (d.Hygienic S ((serStruct (namedFields d wires)).names d (str! "Serialize")) ↔ d.SerFits S) := by
  have e1 := fun sc => names_deStruct (S := S) (id := d.name) (namedFields d wires) (namedFields_eq h) sc
  have e2 := fun sc => names_serStruct (S := S) (id := d.name) (namedFields d wires) (namedFields_eq h) sc
  rw [← Expand.C87_struct_de, ← Expand.C87_struct_ser]
  constructor
  · unfold Expand.Struct.Hygienic; rw [e1]
  · unfold Expand.Struct.Hygienic; rw [e2]

/-- As `C89_names`, for enums. -/
theorem C89_names_enum (S : Site) (d : Expand.Enum) (wires : List Bytes) (h : wires.length = d.variants.length) :
    (d.Hygienic S ((deEnum (namedVariants d wires)).names (enumStruct d) (str! "Deserialize")) ↔ d.DeFits S) ∧
    (d.Hygienic S ((serEnum (namedVariants d wires)).names (enumStruct d) (str! "Serialize")) ↔ d.SerFits S) := by
  have e1 := names_deEnum (S := S) (id := d.name) d (namedVariants d wires) (namedVariants_eq h)
  have e2 := names_serEnum (S := S) (id := d.name) d (namedVariants d wires) (namedVariants_eq h)
  rw [← Expand.C87_enum_de, ← Expand.C87_enum_ser]
  constructor
  · unfold Expand.Enum.Hygienic; rw [e1]
  · unfold Expand.Enum.Hygienic; rw [e2]

/-! ## Examples -/

/-- A small world of types: `u8`, a `T`, a `T: ?Sized`, `str` and a type without impls. -/
inductive ExTy where
  | u8 | param | unsizedParam | str | opaque
  deriving DecidableEq

/-- `struct S<T> { fs }`. With the bound `T: Deserialize` a `T: ?Sized` is `Sized` (this is the world of the derived `Deserialize`; nothing below uses that part for `Serialize`). -/
def exWorld (fs : List (Field ExTy)) : World ExTy where
  decl := .strct (fs.map fun f => (f.ident, f.ty))
  implements b l a := (l = .deserialize ∨ l = .serialize) ∧ (a = .u8 ∨ (b = true ∧ (a = .param ∨ a = .unsizedParam)) ∨ (a = .str ∧ l = .serialize))
  sized b a := a = .u8 ∨ a = .param ∨ a = .opaque ∨ (a = .unsizedParam ∧ b = true)

/-- `struct S<T> { a: u8, #[serde(rename = "t")] b: T }` -/
def exGood : List (Field ExTy) := [⟨str! "a", str! "a", .u8⟩, ⟨str! "b", str! "t", .param⟩]

example : Compiles (exWorld exGood) (deStruct exGood) ∧ Compiles (exWorld exGood) (serStruct exGood) :=
  ⟨(C89_struct_de _ exGood rfl (by decide) (by rintro a (rfl | rfl | rfl | ⟨rfl, h⟩) <;> simp_all [exWorld])).2 ⟨by decide, by simp [exGood, exWorld]⟩,
   (C89_struct_ser _ exGood rfl (by decide)).2 (by simp [exGood, exWorld])⟩

/-- A field of a type without impls, a field named `__out`, and `struct S<T: ?Sized> { b: T }`, whose state has a field of type `Option<T>` without the bound. -/
example :
    (let fs : List (Field ExTy) := [⟨str! "a", str! "a", .opaque⟩]; ¬ Compiles (exWorld fs) (deStruct fs) ∧ ¬ Compiles (exWorld fs) (serStruct fs)) ∧
    (let fs : List (Field ExTy) := [⟨str! "__out", str! "a", .u8⟩]; ¬ Compiles (exWorld fs) (deStruct fs) ∧ Compiles (exWorld fs) (serStruct fs)) ∧
    (let fs : List (Field ExTy) := [⟨str! "b", str! "b", .unsizedParam⟩]; (exWorld fs).sized true .unsizedParam ∧ (exWorld fs).implements true .deserialize .unsizedParam ∧ ¬ Compiles (exWorld fs) (deStruct fs)) := by
  have m : ∀ fs a, (exWorld fs).sized false a → (exWorld fs).sized true a := by
    rintro fs a (rfl | rfl | rfl | ⟨rfl, h⟩) <;> simp_all [exWorld]
  have d := fun fs hd => C89_struct_de (exWorld fs) fs rfl hd (m fs)
  have e := fun fs hd => C89_struct_ser (exWorld fs) fs rfl hd
  refine ⟨⟨?_, ?_⟩, ⟨?_, ?_⟩, by simp [exWorld], by simp [exWorld], ?_⟩ <;> first | rw [d _ (by decide)] | rw [e _ (by decide)]
  all_goals simp [exWorld]

/-- `enum E {}` and `enum E { A }`. -/
example :
    (¬ Compiles (⟨.enm [], fun _ _ _ => False, fun _ _ => False⟩ : World ExTy) (serEnum []) ∧ Compiles (⟨.enm [], fun _ _ _ => False, fun _ _ => False⟩ : World ExTy) (deEnum [])) ∧
    Compiles (⟨.enm [str! "A"], fun _ _ _ => False, fun _ _ => False⟩ : World ExTy) (serEnum [⟨str! "A", str! "a"⟩]) :=
  ⟨⟨fun h => (C89_enum_ser _ [] rfl).1 h rfl, C89_enum_de _ [] rfl⟩, (C89_enum_ser _ [⟨str! "A", str! "a"⟩] rfl).2 (by simp)⟩

example : Expand.exStruct.Hygienic Expand.exSite ((deStruct (namedFields Expand.exStruct (Expand.exStruct.fields.map Prod.fst))).names Expand.exStruct (str! "Deserialize")) :=
  (C89_names Expand.exSite Expand.exStruct _ (by simp)).1.2 ⟨⟨by decide, by decide, by decide, by decide, by decide⟩, by decide, ⟨by decide, by decide, by decide, by decide⟩,
    ⟨by decide, by decide, by decide, by decide⟩, by decide, by decide, by simp only [Expand.Free]; decide, fun _ => by simp only [Expand.Takes]; decide⟩

end Miniserde.Code
