import Verif.Model.Code

set_option linter.unusedSimpArgs false

namespace Miniserde.Code

open Expand (Src Ns Tm Site Scope Occ)

section

variable {S : Site} {id : Bytes} {d : Expand.Struct}

theorem occs_all (l : List Tm) (sc : Scope) : (Tm.all l).occs S id sc = l.flatMap fun t => t.occs S id sc := by
  induction l with
  | nil => rfl
  | cons t l ih => rw [Tm.all, Tm.occs, ih, List.flatMap_cons]

theorem occs_flds (l : List (Bytes × Ex Mentions)) (sc : Scope) : ((Flds.ofList l).names d).occs S id sc = l.flatMap fun p => (p.2.names d).occs S id sc := by
  induction l with
  | nil => rfl
  | cons p l ih => obtain ⟨f, e⟩ := p; rw [Flds.ofList, Flds.names, Tm.occs, ih, List.flatMap_cons]

theorem occs_arms (l : List (Pat × Ex Mentions)) (sc : Scope) :
    ((Arms.ofList l).names d).occs S id sc = l.flatMap fun p => p.1.names.occs S id sc ++ (p.2.names d).occs S id sc := by
  induction l with
  | nil => rfl
  | cons p l ih => obtain ⟨f, e⟩ := p; rw [Arms.ofList, Arms.names, Tm.occs, Tm.occs, ih, List.flatMap_cons]

theorem occs_takes (fs : List (Field Mentions)) (body : Ex Mentions) (rest : Tm) (h : ∀ sc, (body.names d).occs S id sc = rest.occs S id sc) (sc : Scope) :
    ((takes fs body).names d).occs S id sc = (Expand.lets (fs.map Field.ident) rest).occs S id sc := by
  induction fs generalizing sc with
  | nil => exact h sc
  | cons f fs ih =>
    rw [takes, List.map_cons, Expand.lets]
    simp only [Ex.names, Tm.occs, occs_all, ih, List.flatMap_cons, List.flatMap_nil, List.append_nil, error, Expand.root, List.nil_append, List.append_assoc]

theorem occs_nextArms (fs : List (Field Mentions)) (n : Nat) (sc : Scope) :
    ((nextArms n fs).flatMap fun p => p.1.names.occs S id sc ++ (p.2.names d).occs S id sc) =
      (fs.map fun _ => Tm.seq (Expand.priv .val (str! "Some")) (.use (.lib .val [str! "__private", str! "Cow", str! "Borrowed"]))).flatMap fun t => t.occs S id sc := by
  induction fs generalizing n with
  | nil => rfl
  | cons f fs ih =>
    rw [nextArms, List.flatMap_cons, ih, List.map_cons, List.flatMap_cons]
    rfl

theorem namedFields_eq {wires : List Bytes} (h : wires.length = d.fields.length) : (namedFields d wires).map (fun f => (f.ident, f.ty)) = d.fields := by
  unfold namedFields
  rw [List.map_map]
  exact List.map_fst_zip (by omega)

theorem names_finish (fs : List (Field Mentions)) (h : fs.map (fun f => (f.ident, f.ty)) = d.fields) (sc : Scope) :
    ((finishFn fs).names d).occs S id sc = (Tm.all [.use (.lib .ty [str! "Result"]), Expand.lets (d.fields.map Prod.fst)
      (.all [Expand.priv .val (str! "Some"), .use .ident, .all (d.fields.map fun f => .use (.var f.1)), Expand.priv .val (str! "Ok")])]).occs S id sc := by
  have h1 : d.fields.map Prod.fst = fs.map Field.ident := by rw [← h, List.map_map]; rfl
  have h2 : ∀ {β : Type} (g : Bytes × Mentions → β), d.fields.map g = fs.map fun f => g (f.ident, f.ty) := fun g => by rw [← h, List.map_map]; rfl
  rw [Fn.names, finishFn]
  simp only [Tm.occs, occs_all, List.flatMap_cons, List.flatMap_nil, List.append_nil, resultOf, TyX.names]
  rw [h1, occs_takes fs _ _ (fun sc => ?_) sc]
  simp only [Ex.names, Tm.occs, occs_all, occs_flds, h2, List.flatMap_cons, List.flatMap_nil, List.append_nil, List.nil_append, List.append_assoc, someOf, okOf, var, Expand.priv, priv,
      List.flatMap_map]

theorem names_deStruct (fs : List (Field Mentions)) (h : fs.map (fun f => (f.ident, f.ty)) = d.fields) (sc : Scope) :
    ((deStruct fs).names d (str! "Deserialize")).occs S id sc = (Expand.deStruct d).occs S id sc := by
  have h2 : ∀ {β : Type} (g : Bytes × Mentions → β), d.fields.map g = fs.map fun f => g (f.ident, f.ty) := fun g => by rw [← h, List.map_map]; rfl
  have h1 : d.fields.map Prod.fst = fs.map Field.ident := by rw [← h, List.map_map]; rfl
  unfold Expansion.names deStruct Expand.deStruct Expand.deItems
  simp only [Tm.occs, List.flatMap_cons, List.flatMap_nil, Item.declared, List.nil_append, List.append_nil, List.cons_append, occs_all, List.map_cons, List.map_nil, Item.names, Expand.item,
    names_finish fs h]
  simp only [Tm.occs, List.flatMap_cons, List.flatMap_nil, List.nil_append, List.append_nil, List.cons_append, occs_all, List.map_cons, List.map_nil,
    Fn.names, beginFn, mapFn, keyFn, h2, if_true, TyX.names, Ex.names, occs_flds, occs_arms, Expand.beginBody, List.flatMap_map, List.flatMap_append, List.map_append,
    List.append_assoc, optionOf, boxOf, resultOf, strRef, dynVisitor, visitorSrc, boxNew, okOf, var, priv, Expand.priv, Expand.root, Pat.names, List.map_map, Function.comp_def]

theorem names_serStruct (fs : List (Field Mentions)) (h : fs.map (fun f => (f.ident, f.ty)) = d.fields) (sc : Scope) :
    ((serStruct fs).names d (str! "Serialize")).occs S id sc = (Expand.serStruct d).occs S id sc := by
  have h2 : ∀ {β : Type} (g : Bytes × Mentions → β), d.fields.map g = fs.map fun f => g (f.ident, f.ty) := fun g => by rw [← h, List.map_map]; rfl
  unfold Expansion.names serStruct Expand.serStruct Expand.serItems
  simp only [Tm.occs, List.flatMap_cons, List.flatMap_nil, Item.declared, List.nil_append, List.append_nil, List.cons_append, occs_all, List.map_cons, List.map_nil, Item.names, Expand.item,
    Fn.names, serBeginFn, nextFn, h2, if_true, TyX.names, Ex.names, occs_flds, occs_arms, occs_nextArms, List.flatMap_append, List.map_append,
    List.append_assoc, optionOf, boxNew, var, priv, Expand.priv, Expand.root, List.flatMap_map]
  simp only [Pat.names, Tm.occs, List.nil_append]

theorem namedVariants_eq {d : Expand.Enum} {wires : List Bytes} (h : wires.length = d.variants.length) : (namedVariants d wires).map Variant.ident = d.variants := by
  unfold namedVariants
  rw [List.map_map]
  exact List.map_fst_zip (by omega)

theorem names_deEnum (d : Expand.Enum) (vs : List Variant) (h : vs.map Variant.ident = d.variants) :
    ((deEnum vs).names (enumStruct d) (str! "Deserialize")).occs S id Scope.top = (Expand.deEnum d).occs S id Scope.top := by
  have h2 : ∀ {β : Type} (g : Bytes → β), d.variants.map g = vs.map fun f => g f.ident := fun g => by rw [← h, List.map_map]; rfl
  unfold Expansion.names deEnum Expand.deEnum enumStruct
  simp only [Tm.occs, List.flatMap_cons, List.flatMap_nil, Item.declared, List.nil_append, List.append_nil, List.cons_append, occs_all, List.map_cons, List.map_nil, Item.names, Expand.item,
    Fn.names, beginFn, stringFn, h2, if_false, TyX.names, Ex.names, occs_flds, occs_arms, List.flatMap_append, List.map_append, Expand.beginBody, Expand.copy,
    List.append_assoc, optionOf, resultOf, strRef, dynVisitor, visitorSrc, boxNew, okOf, someOf, error, var, priv, Expand.priv, Expand.root, Pat.names, List.flatMap_map, Bool.false_eq_true,
    Scope.top]

theorem names_serEnum (d : Expand.Enum) (vs : List Variant) (h : vs.map Variant.ident = d.variants) :
    ((serEnum vs).names (enumStruct d) (str! "Serialize")).occs S id Scope.top = (Expand.serEnum d).occs S id Scope.top := by
  have h2 : ∀ {β : Type} (g : Bytes → β), d.variants.map g = vs.map fun f => g f.ident := fun g => by rw [← h, List.map_map]; rfl
  unfold Expansion.names serEnum Expand.serEnum enumStruct
  simp only [Tm.occs, List.flatMap_cons, List.flatMap_nil, Item.declared, List.nil_append, List.append_nil, List.cons_append, occs_all, List.map_cons, List.map_nil, Item.names, Expand.item,
    Fn.names, serEnumFn, h2, if_false, TyX.names, Ex.names, occs_flds, occs_arms, List.flatMap_append, List.map_append, Expand.copy,
    List.append_assoc, cowBorrowed, var, priv, Expand.priv, Expand.root, Pat.names, List.flatMap_map, Bool.false_eq_true,
    Scope.top]

end

end Miniserde.Code
