import Verif.Spec.CodeTypes

set_option linter.unusedSimpArgs false

namespace Miniserde.Code

open Expand (Src Ns Lib Meaning)

section

variable {α : Type} {W : World α} {x : Expansion α}

theorem flds_judge (l : List (Bytes × Ex α)) (Γ : Ctx α) : (Flds.ofList l).judge W x Γ = l.map fun p => (p.1, p.2.judge W x Γ) := by
  induction l with
  | nil => rfl
  | cons p l ih => obtain ⟨f, e⟩ := p; simp only [Flds.ofList, Flds.judge, ih, List.map_cons]

theorem arms_judge (l : List (Pat × Ex α)) (Γ : Ctx α) : (Arms.ofList l).judge W x Γ = l.map fun p => (p.1, p.2.judge W x Γ) := by
  induction l with
  | nil => rfl
  | cons p l ih => obtain ⟨f, e⟩ := p; simp only [Arms.ofList, Arms.judge, ih, List.map_cons]

theorem mapM_some {β γ : Type} {f : β → Option γ} {g : β → γ} {l : List β} (h : ∀ b ∈ l, f b = some (g b)) : l.mapM f = some (l.map g) := by
  induction l with
  | nil => rfl
  | cons b l ih =>
    rw [List.mapM_cons, h b List.mem_cons_self, ih fun b hb => h b (List.mem_cons_of_mem _ hb)]
    rfl

theorem nodup_inj {β γ : Type} {f : β → γ} {l : List β} (hd : (l.map f).Nodup) {a b : β} (ha : a ∈ l) (hb : b ∈ l) (h : f a = f b) : a = b := by
  induction l with
  | nil => cases ha
  | cons c l ih =>
    rw [List.map_cons, List.nodup_cons] at hd
    rcases List.mem_cons.1 ha with rfl | ha' <;> rcases List.mem_cons.1 hb with rfl | hb'
    · rfl
    · exact (hd.1 (h ▸ List.mem_map_of_mem hb')).elim
    · exact (hd.1 (h ▸ List.mem_map_of_mem ha')).elim
    · exact ih hd.2 ha' hb'

theorem value_chk {b : Bool} {syn : RT α → Prop} {t : RT α} : (value W x b syn).chk t ↔ ∃ s, syn s ∧ Coerce W x b s t := Iff.rfl

/-- Only the types that are behind a pointer can be coerced. -/
theorem coerce_iff {b : Bool} {s t : RT α} (h : ∀ m l, t ≠ .ref m (.dyn l)) (h' : ∀ l, t ≠ .box (.dyn l)) : Coerce W x b s t ↔ s = t := by
  constructor
  · intro c
    cases c with
    | refl => rfl
    | ref m _ _ => exact (h _ _ rfl).elim
    | box _ _ => exact (h' _ rfl).elim
  · rintro rfl; exact .refl _

theorem m_some : meant (priv .val (str! "Some")) = .lib .some := rfl
theorem m_ok : meant (priv .val (str! "Ok")) = .lib .ok := rfl
theorem m_err : meant (priv .val (str! "Err")) = .lib .err := rfl
theorem m_none : meant (priv .val (str! "None")) = .lib .none := rfl
theorem m_option : meant (priv .ty (str! "Option")) = .lib .option := rfl
theorem m_box : meant (priv .ty (str! "Box")) = .lib .box := rfl
theorem m_cow : meant (priv .ty (str! "Cow")) = .lib .cow := rfl
theorem m_str : meant (priv .ty (str! "str")) = .lib .str := rfl
theorem m_usize : meant (priv .ty (str! "usize")) = .lib .usize := rfl
theorem m_boxNew : meant (.lib .val [str! "__private", str! "Box", str! "new"]) = .lib .boxNew := rfl
theorem m_cowBorrowed : meant (.lib .val [str! "__private", str! "Cow", str! "Borrowed"]) = .lib .cowBorrowed := rfl
theorem m_error : meant (.lib .val [str! "Error"]) = .lib .error := rfl
theorem m_result : meant (.lib .ty [str! "Result"]) = .lib .result := rfl
theorem m_visitor : meant visitorSrc = .lib .visitor := rfl
theorem m_deMap : meant (.lib .ty [str! "de", str! "Map"]) = .lib .deMap := rfl
theorem m_serMap : meant (.lib .ty [str! "ser", str! "Map"]) = .lib .serMap := rfl
theorem m_fragment : meant (.lib .ty [str! "ser", str! "Fragment"]) = .lib .fragment := rfl
theorem m_fragMap : meant (.lib .val [str! "ser", str! "Fragment", str! "Map"]) = .lib .fragmentMap := rfl
theorem m_fragStr : meant (.lib .val [str! "ser", str! "Fragment", str! "Str"]) = .lib .fragmentStr := rfl
theorem m_deserialize : meant (.lib .ty [str! "Deserialize"]) = .lib .deserialize := rfl
theorem m_serialize : meant (.lib .ty [str! "Serialize"]) = .lib .serialize := rfl
theorem m_begin : meant (.lib .val [str! "Deserialize", str! "begin"]) = .lib .deserializeBegin := rfl
theorem m_default : meant (.lib .val [str! "Deserialize", str! "default"]) = .lib .deserializeDefault := rfl
theorem m_ignore : meant (.lib .val [str! "de", str! "Visitor", str! "ignore"]) = .lib .ignore := rfl
theorem m_okSrc : meant .ok = .lib .ok := rfl
theorem m_var (y : Bytes) : meant (.var y) = .var y := rfl
theorem m_variant (y : Bytes) : meant (.variant y) = .variant y := rfl

/-! ### Deserialize of a struct -/

variable {fs : List (Field α)}

/-- The fields of `__State`. -/
def stateFields (fs : List (Field α)) : List (Bytes × RT α) := (fs.map fun f => (f.ident, .option (.user f.ty))) ++ [(str! "__out", .ref true (.option .target))]

theorem fields_visitor : fieldsOf W (deStruct fs) (.helper (str! "__Visitor")) = some [(str! "__out", .option .target)] := rfl

theorem fields_state : fieldsOf W (deStruct fs) (.helper (str! "__State")) = some (stateFields fs) := by
  have h : ((fs.map fun f : Field α => (f.ident, optionOf (TyX.user f.ty))) ++ [(str! "__out", TyX.ref true (optionOf (.applied .ident)))]).mapM
      (fun f : Bytes × TyX α => (f.2.den (.helper (str! "__State"))).map fun t => (f.1, t)) = some (stateFields fs) := by
    rw [List.mapM_append, List.mapM_map]
    have e : List.mapM ((fun f : Bytes × TyX α => (f.2.den (.helper (str! "__State"))).map fun t => (f.1, t)) ∘ fun f : Field α => (f.ident, optionOf (TyX.user f.ty))) fs =
        some (fs.map fun f => (f.ident, RT.option (.user f.ty))) := mapM_some (fun f _ => rfl)
    rw [e]
    rfl
  unfold fieldsOf deStruct
  simp only [List.findSome?_cons]
  have e1 : (str! "__Visitor" = str! "__State") = False := by decide
  simp only [e1, if_false, if_true]
  rw [h]

theorem impl_visitor : Implements W (deStruct fs) true .visitor (.helper (str! "__Visitor")) :=
  ⟨_, _, _, _, by simp only [deStruct]; exact List.mem_cons_of_mem _ (List.mem_cons_of_mem _ List.mem_cons_self), rfl, rfl, fun _ => rfl⟩

theorem impl_state : Implements W (deStruct fs) true .deMap (.helper (str! "__State")) :=
  ⟨_, _, _, _, by simp only [deStruct]; exact List.mem_cons_of_mem _ (List.mem_cons_of_mem _ (List.mem_cons_of_mem _ (List.mem_cons_of_mem _ List.mem_cons_self))), rfl, rfl, fun _ => rfl⟩

theorem state_mem (hd : (fs.map Field.ident).Nodup) (ho : str! "__out" ∉ fs.map Field.ident) {f : Field α} (hf : f ∈ fs) {t : RT α} :
    (f.ident, t) ∈ stateFields fs ↔ t = .option (.user f.ty) := by
  unfold stateFields
  rw [List.mem_append]
  constructor
  · rintro (h | h)
    · obtain ⟨g, hg, e⟩ := List.mem_map.1 h
      obtain ⟨e1, rfl⟩ := Prod.mk.inj e
      rw [nodup_inj hd hg hf e1]
    · rw [List.mem_singleton] at h
      exact (ho ((Prod.mk.inj h).1 ▸ List.mem_map_of_mem hf)).elim
  · rintro rfl
    exact .inl (List.mem_map.2 ⟨f, hf, rfl⟩)

theorem out_mem (ho : str! "__out" ∉ fs.map Field.ident) {t : RT α} :
    (str! "__out", t) ∈ stateFields fs ↔ t = .ref true (.option .target) := by
  unfold stateFields
  rw [List.mem_append]
  constructor
  · rintro (h | h)
    · obtain ⟨g, hg, e⟩ := List.mem_map.1 h
      exact (ho ((Prod.mk.inj e).1 ▸ List.mem_map_of_mem hg)).elim
    · rw [List.mem_singleton] at h
      exact (Prod.mk.inj h).2
  · rintro rfl
    exact .inr (List.mem_singleton.2 rfl)

/-- In a method of `__State` with `&mut self`. -/
theorem get_state {Γ : Ctx α} (hs : Γ.self = some (.ref true (.helper (str! "__State")))) {f : Bytes} {t : RT α} :
    ((Ex.get .self f).judge W (deStruct fs) Γ).place t ↔ (f, t) ∈ stateFields fs := by
  simp only [Ex.judge, placed, HasField, hs, Option.some.injEq, exists_eq_left, exists_eq_left', exists_eq_right, exists_eq_right', true_and, strip, fields_state]

theorem get_state_muta {Γ : Ctx α} (hs : Γ.self = some (.ref true (.helper (str! "__State")))) {f : Bytes} :
    ((Ex.get .self f).judge W (deStruct fs) Γ).muta ↔ True := by
  simp only [Ex.judge, placed, hs, Option.some.injEq, exists_eq_left, exists_eq_left', exists_eq_right, exists_eq_right', true_and]

theorem get_state_uniq {Γ : Ctx α} (hs : Γ.self = some (.ref true (.helper (str! "__State")))) {f : Bytes} :
    ((Ex.get .self f).judge W (deStruct fs) Γ).uniq ↔ True := by
  simp only [Ex.judge, placed, hs, Option.some.injEq, exists_eq_left, exists_eq_left', exists_eq_right, exists_eq_right', true_and]

theorem chk_error {Γ : Ctx α} : ((error : Ex α).judge W x Γ).chk .error ↔ True := by
  simp only [error, Ex.judge, pathJ, m_error, value_chk, exists_eq_left, exists_eq_left', exists_eq_right, exists_eq_right', true_and, iff_true]
  exact .refl _

/-- `self.f.take().ok_or(Error)?` has the type of the field. -/
theorem syn_take (hd : (fs.map Field.ident).Nodup) (ho : str! "__out" ∉ fs.map Field.ident) {Γ : Ctx α} (hs : Γ.self = some (.ref true (.helper (str! "__State"))))
    (hr : Γ.ret = .result .unit) {f : Field α} (hf : f ∈ fs) {t : RT α} :
    ((Ex.quest (.okOr (.take (.get .self f.ident)) error)).judge W (deStruct fs) Γ).syn t ↔ t = .user f.ty := by
  have e := fun t => state_mem hd ho hf (t := t)
  rw [Ex.judge, Ex.judge, Ex.judge]
  simp only [value, get_state hs, get_state_muta hs, chk_error, e, hr, RT.result.injEq, RT.option.injEq, exists_eq_left, exists_eq_left', exists_eq_right, exists_eq_right', and_true, true_and, exists_eq', exists_eq]

/-- The local variables of `finish`. -/
def taken (Γ : Ctx α) (gs : List (Field α)) : Ctx α := { Γ with vars := (gs.map fun f => (f.ident, .user f.ty)).reverse ++ Γ.vars }

theorem chk_takes (hd : (fs.map Field.ident).Nodup) (ho : str! "__out" ∉ fs.map Field.ident) (body : Ex α) (t : RT α) (gs : List (Field α)) (hg : ∀ g ∈ gs, g ∈ fs)
    {Γ : Ctx α} (hs : Γ.self = some (.ref true (.helper (str! "__State")))) (hr : Γ.ret = .result .unit) :
    ((takes gs body).judge W (deStruct fs) Γ).chk t ↔ (body.judge W (deStruct fs) (taken Γ gs)).chk t := by
  induction gs generalizing Γ with
  | nil => rfl
  | cons g gs ih =>
    rw [takes, Ex.judge]
    simp only [syn_take hd ho hs hr (hg g List.mem_cons_self), exists_eq_left, exists_eq_left', exists_eq_right, exists_eq_right', true_and]
    rw [ih (fun g h => hg g (List.mem_cons_of_mem _ h)) (by exact hs) (by exact hr)]
    simp only [taken, List.map_cons, List.reverse_cons, List.append_assoc, List.cons_append, List.nil_append]

theorem find_var (hd : (fs.map Field.ident).Nodup) {f : Field α} (hf : f ∈ fs) (vs : List (Bytes × RT α)) :
    (((fs.map fun f => (f.ident, RT.user f.ty)).reverse ++ vs).find? fun p => p.1 == f.ident) = some (f.ident, .user f.ty) := by
  have hm : (f.ident, RT.user f.ty) ∈ (fs.map fun f => (f.ident, RT.user f.ty)).reverse := List.mem_reverse.2 (List.mem_map.2 ⟨f, hf, rfl⟩)
  rw [List.find?_append]
  cases h : ((fs.map fun f => (f.ident, RT.user f.ty)).reverse.find? fun p => p.1 == f.ident) with
  | none =>
    have := List.find?_eq_none.1 h _ hm
    simp at this
  | some p =>
    have h1 := List.mem_of_find?_eq_some h
    have h2 := List.find?_some h
    obtain ⟨g, hg, rfl⟩ := List.mem_map.1 (List.mem_reverse.1 h1)
    have : g = f := nodup_inj hd hg hf (by simpa using h2)
    rw [this]
    rfl

/-- The struct literal in `finish`. -/
theorem syn_literal (hW : W.decl = .strct (fs.map fun f => (f.ident, f.ty))) (hd : (fs.map Field.ident).Nodup) {Γ : Ctx α} {t : RT α} :
    ((Ex.lit .ident (.ofList (fs.map fun f => (f.ident, var f.ident)))).judge W (deStruct fs) (taken Γ fs)).syn t ↔ t = .target := by
  have hden : (TyX.applied (α := α) .ident).den (taken Γ fs).selfTy = some .target := rfl
  have hj : ∀ f ∈ fs, ∀ u, (((var f.ident : Ex α)).judge W (deStruct fs) (taken Γ fs)).chk u ↔ Coerce W (deStruct fs) Γ.bounded (.user f.ty) u := by
    intro f hf u
    simp only [var, Ex.judge, pathJ, m_var, placed, value, taken, find_var hd hf, Option.map_some, Option.some.injEq, exists_eq_left, exists_eq_left', exists_eq_right, exists_eq_right', true_and, Bool.false_eq_true, false_imp_iff, and_true]
  have hfd : fieldsOf W (deStruct fs) .target = some (fs.map fun f => (f.ident, .user f.ty)) := by
    simp only [fieldsOf, hW, List.map_map]
    rfl
  rw [Ex.judge]
  simp only [value, hden, Option.some.injEq, flds_judge, List.map_map, Function.comp_def, List.forall_mem_map]
  constructor
  · exact fun h => h.1.symm
  · rintro rfl
    refine ⟨rfl, _, hfd, hd, ?_, ?_⟩
    · intro f hf
      obtain ⟨g, hg, rfl⟩ := List.mem_map.1 hf
      exact List.mem_map_of_mem hg
    · intro f hf
      exact ⟨_, List.mem_map.2 ⟨f, hf, rfl⟩, (hj f hf _).2 (.refl _)⟩

/-- The struct literal in `map`. -/
theorem syn_state (hd : (fs.map Field.ident).Nodup) (ho : str! "__out" ∉ fs.map Field.ident) {Γ : Ctx α}
    (hs : Γ.self = some (.ref true (.helper (str! "__Visitor")))) {t : RT α} :
    ((Ex.lit (.helper (str! "__State")) (.ofList ((fs.map fun f => (f.ident, .call0 (.lib .val [str! "Deserialize", str! "default"]))) ++
        [(str! "__out", .ref true (.get .self (str! "__out")))]))).judge W (deStruct fs) Γ).syn t ↔
      t = .helper (str! "__State") ∧ ∀ f ∈ fs, W.implements Γ.bounded .deserialize f.ty := by
  have hden : (TyX.applied (α := α) (.helper (str! "__State"))).den Γ.selfTy = some (.helper (str! "__State")) := rfl
  have hj : ∀ u, ((Ex.call0 (α := α) (.lib .val [str! "Deserialize", str! "default"])).judge W (deStruct fs) Γ).chk (.option u) ↔
      Implements W (deStruct fs) Γ.bounded .deserialize u := by
    intro u
    simp only [Ex.judge, call0J, m_default, value_chk, coerce_iff (W := W) (x := deStruct fs) (b := Γ.bounded) (t := .option u) (by simp) (by simp), exists_eq_right, RT.option.injEq, exists_eq_left']
  have ho' : ((Ex.ref true (Ex.get .self (str! "__out")) : Ex α).judge W (deStruct fs) Γ).chk (.ref true (.option .target)) := by
    refine ⟨_, ⟨_, rfl, ?_, fun _ => ?_⟩, .refl _⟩
    · exact ⟨_, hs, _, fields_visitor, List.mem_cons_self⟩
    · exact ⟨_, hs, rfl, trivial⟩
  rw [Ex.judge]
  simp only [value, hden, Option.some.injEq, flds_judge, List.map_append, List.map_map, Function.comp_def, List.map_cons, List.map_nil]
  constructor
  · rintro ⟨rfl, ds, h1, -, -, h4⟩
    rw [fields_state] at h1
    cases h1
    refine ⟨rfl, fun f hf => ?_⟩
    obtain ⟨u, hu, hc⟩ := h4 _ (List.mem_append_left _ (List.mem_map.2 ⟨f, hf, rfl⟩))
    rw [(state_mem hd ho hf).1 hu] at hc
    exact (hj _).1 hc
  · rintro ⟨rfl, h⟩
    refine ⟨rfl, _, fields_state, ?_, ?_, ?_⟩
    · refine List.nodup_append.2 ⟨hd, by simp, ?_⟩
      intro a ha b hb e
      rw [List.mem_singleton] at hb
      exact ho (hb ▸ e ▸ ha)
    · intro f hf
      rcases List.mem_append.1 hf with hf | hf
      · obtain ⟨g, hg, rfl⟩ := List.mem_map.1 hf
        exact List.mem_append_left _ (List.mem_map_of_mem hg)
      · rw [List.mem_singleton] at hf
        subst hf
        exact List.mem_append_right _ List.mem_cons_self
    · intro g hg
      rcases List.mem_append.1 hg with hg | hg
      · obtain ⟨f, hf, rfl⟩ := List.mem_map.1 hg
        exact ⟨_, (state_mem hd ho hf).2 rfl, (hj _).2 (h f hf)⟩
      · rw [List.mem_singleton] at hg
        subst hg
        exact ⟨_, (out_mem ho).2 rfl, ho'⟩

theorem fnOk_iff {b : Bool} {self : RT α} {l : Lib} {fn : Fn α} {g : Sig α} (hg : g ∈ sigs self l) (hu : ∀ g' ∈ sigs self l, g'.name = fn.name → g' = g)
    (hn : g.name = fn.name) (hr : g.recv = fn.recv) (hp : (fn.param.map fun p => p.2.den self) = g.param.map some) (ht : fn.ret.den self = some g.ret) :
    FnOk W x b self l fn ↔ (∀ t ∈ g.param.toList ++ [g.ret], Wf W b t) ∧
    (fn.body.judge W x ⟨fn.recv.ty self, self, (match fn.param, g.param with
      | some p, some t => [(p.1, t)]
      | _, _ => []), g.ret, b, false⟩).chk g.ret := by
  constructor
  · rintro ⟨g', h1, h2, -, -, -, h3⟩
    rw [hu g' h1 h2] at h3
    exact h3
  · intro h
    exact ⟨g, hg, hn, hr, hp, ht, h⟩

/-- `fn map`. -/
theorem map_ok (hd : (fs.map Field.ident).Nodup) (ho : str! "__out" ∉ fs.map Field.ident) :
    FnOk W (deStruct fs) true (.helper (str! "__Visitor")) .visitor (mapFn fs) ↔ ∀ f ∈ fs, W.implements true .deserialize f.ty := by
  rw [fnOk_iff (g := ⟨str! "map", false, .mut, none, .result (.box (.dyn .deMap))⟩) (by simp [sigs]) (by
    intro g' h hn
    simp only [sigs, List.mem_cons, List.not_mem_nil, or_false] at h
    rcases h with rfl | rfl | rfl <;> first | rfl | simp [mapFn] at hn) rfl rfl rfl rfl]
  have hw : ∀ t ∈ (none : Option (RT α)).toList ++ [RT.result (.box (.dyn .deMap))], Wf W true t := by
    intro t ht
    simp only [Option.toList_none, List.nil_append, List.mem_singleton] at ht
    subst ht
    exact ⟨trivial, trivial⟩
  simp only [mapFn]
  rw [Ex.judge, boxNew, Ex.judge]
  simp only [callJ, m_okSrc, m_boxNew, value, RT.result.injEq, exists_eq_left', syn_state hd ho (Γ := ⟨Recv.ty (.helper (str! "__Visitor")) .mut, _, _, _, _, _⟩) rfl]
  constructor
  · rintro ⟨-, s, ⟨u, -, ⟨-, h⟩, -⟩, -⟩
    exact h
  · intro h
    exact ⟨hw, _, ⟨_, rfl, ⟨rfl, h⟩, trivial⟩, .box impl_state trivial⟩

/-- `fn key`. -/
theorem key_ok (hd : (fs.map Field.ident).Nodup) (ho : str! "__out" ∉ fs.map Field.ident) :
    FnOk W (deStruct fs) true (.helper (str! "__State")) .deMap (keyFn fs) ↔ ∀ f ∈ fs, W.implements true .deserialize f.ty := by
  rw [fnOk_iff (g := ⟨str! "key", true, .mut, some (.ref false .str), .result (.ref true (.dyn .visitor))⟩) (by simp [sigs]) (by
    intro g' h hn
    simp only [sigs, List.mem_cons, List.not_mem_nil, or_false] at h
    rcases h with rfl | rfl <;> first | rfl | simp [keyFn] at hn) rfl rfl rfl rfl]
  have hw : ∀ t ∈ (some (RT.ref (α := α) false .str)).toList ++ [RT.result (.ref true (.dyn .visitor))], Wf W true t := by
    intro t ht
    simp only [Option.toList_some, List.cons_append, List.nil_append, List.mem_cons, List.not_mem_nil, or_false] at ht
    rcases ht with rfl | rfl
    · trivial
    · exact ⟨trivial, trivial⟩
  simp only [keyFn]
  generalize hΓ : (⟨Recv.ty (.helper (str! "__State")) .mut, _, _, _, _, _⟩ : Ctx α) = Γ
  have hs : Γ.self = some (.ref true (.helper (str! "__State"))) := by rw [← hΓ]; rfl
  have hb : Γ.bounded = true := by rw [← hΓ]
  have hk : ∀ s, ((var (str! "__k") : Ex α).judge W (deStruct fs) Γ).syn s ↔ s = .ref false .str := by
    intro s
    simp only [← hΓ, var, Ex.judge, pathJ, m_var, placed, value, List.find?_cons, beq_self_eq_true, Option.map_some, Option.some.injEq, Bool.false_eq_true, false_imp_iff, and_true]
    exact eq_comm
  have hbegin : ∀ f ∈ fs, ((okOf (.call (.lib .val [str! "Deserialize", str! "begin"]) (.ref true (.get .self f.ident)) : Ex α)).judge W (deStruct fs) Γ).chk
      (.result (.ref true (.dyn .visitor))) ↔ W.implements true .deserialize f.ty := by
    intro f hf
    have e := fun t => state_mem hd ho hf (t := t)
    rw [okOf, Ex.judge, Ex.judge, Ex.judge]
    simp only [callJ, m_ok, m_begin, value, RT.result.injEq, exists_eq_left', get_state hs, get_state_muta hs, e, RT.ref.injEq, true_and, RT.option.injEq, imp_true_iff, and_true,
      exists_eq_left, RT.user.injEq, hb, exists_eq_right', exists_eq_right]
    constructor
    · rintro ⟨s, ⟨-, h⟩, -⟩
      exact h
    · exact fun h => ⟨_, ⟨rfl, h⟩, .refl _⟩
  have hig : ((okOf (.call0 (.lib .val [str! "de", str! "Visitor", str! "ignore"]) : Ex α)).judge W (deStruct fs) Γ).chk
      (.result (.ref true (.dyn .visitor))) := by
    rw [okOf, Ex.judge, Ex.judge]
    simp only [callJ, m_ok, call0J, m_ignore, value, RT.result.injEq, exists_eq_left']
    exact ⟨_, rfl, .refl _⟩
  rw [Ex.judge]
  simp only [arms_judge, hk, exists_eq_left]
  constructor
  · rintro ⟨-, -, h⟩ f hf
    exact (hbegin f hf).1 (h _ (List.mem_map.2 ⟨_, List.mem_append_left _ (List.mem_map.2 ⟨f, hf, rfl⟩), rfl⟩))
  · intro h
    refine ⟨hw, ⟨?_, ?_⟩, ?_⟩
    · intro a ha
      obtain ⟨p, hp, rfl⟩ := List.mem_map.1 ha
      rcases List.mem_append.1 hp with hp | hp
      · obtain ⟨f, hf, rfl⟩ := List.mem_map.1 hp
        rfl
      · rw [List.mem_singleton] at hp
        subst hp
        trivial
    · refine .inl ?_
      rw [List.map_map, List.mem_map]
      exact ⟨_, List.mem_append_right _ List.mem_cons_self, rfl⟩
    · intro a ha
      obtain ⟨p, hp, rfl⟩ := List.mem_map.1 ha
      rcases List.mem_append.1 hp with hp | hp
      · obtain ⟨f, hf, rfl⟩ := List.mem_map.1 hp
        exact (hbegin f hf).2 (h f hf)
      · rw [List.mem_singleton] at hp
        subst hp
        exact hig

/-- `fn finish`. -/
theorem finish_ok (hW : W.decl = .strct (fs.map fun f => (f.ident, f.ty))) (hd : (fs.map Field.ident).Nodup) (ho : str! "__out" ∉ fs.map Field.ident) :
    FnOk W (deStruct fs) true (.helper (str! "__State")) .deMap (finishFn fs) := by
  rw [fnOk_iff (g := ⟨str! "finish", true, .mut, none, .result .unit⟩) (by simp [sigs]) (by
    intro g' h hn
    simp only [sigs, List.mem_cons, List.not_mem_nil, or_false] at h
    rcases h with rfl | rfl <;> first | rfl | simp [finishFn] at hn) rfl rfl rfl rfl]
  refine ⟨?_, ?_⟩
  · intro t ht
    simp only [Option.toList_none, List.nil_append, List.mem_singleton] at ht
    subst ht
    exact ⟨trivial, trivial⟩
  simp only [finishFn]
  generalize hΓ : (⟨Recv.ty (.helper (str! "__State")) .mut, _, _, _, _, _⟩ : Ctx α) = Γ
  have hs : Γ.self = some (.ref true (.helper (str! "__State"))) := by rw [← hΓ]; rfl
  have hr : Γ.ret = .result .unit := by rw [← hΓ]
  rw [chk_takes hd ho _ _ fs (fun _ h => h) hs hr]
  have hs' : (taken Γ fs).self = some (.ref true (.helper (str! "__State"))) := hs
  refine ⟨⟨.unit, rfl, .option .target, ?_, ?_, ?_⟩, ?_⟩
  · exact .inl ⟨true, (get_state hs').2 ((out_mem ho).2 rfl)⟩
  · exact .inl ⟨_, (get_state hs').2 ((out_mem ho).2 rfl), (get_state_uniq hs').2 trivial⟩
  · exact ⟨_, rfl, _, (syn_literal hW hd).2 rfl, .refl _⟩
  · exact ⟨_, rfl, _, rfl, .refl _⟩

/-- `fn begin`. -/
theorem begin_ok (hv : Sized W true (.target : RT α)) : FnOk W (deStruct fs) true .target .deserialize (beginFn (.applied (.helper (str! "__Visitor")))) := by
  rw [fnOk_iff (g := ⟨str! "begin", true, .no, some (.ref true (.option .target)), .ref true (.dyn .visitor)⟩) (by simp [sigs]) (by
    intro g' h hn
    simp only [sigs, List.mem_cons, List.not_mem_nil, or_false] at h
    rcases h with rfl | rfl <;> first | rfl | simp [beginFn] at hn) rfl rfl rfl rfl]
  refine ⟨?_, ?_⟩
  · intro t ht
    simp only [Option.toList_some, List.cons_append, List.nil_append, List.mem_cons, List.not_mem_nil, or_false] at ht
    rcases ht with rfl | rfl
    · exact ⟨trivial, hv⟩
    · trivial
  refine ⟨.ref true (.helper (str! "__Visitor")), ⟨_, rfl, .inr ⟨⟨rfl, .ptr (.option .target), ⟨rfl, .ref true (.option .target), ⟨rfl, ?_⟩, .ref _⟩, .ptr trivial trivial⟩, rfl⟩, fun _ => .inr ⟨_, ⟨rfl, .ptr (.option .target), ⟨rfl, .ref true (.option .target), ⟨rfl, ?_⟩, .ref _⟩, .ptr trivial trivial⟩, rfl⟩⟩, .ref true impl_visitor trivial⟩
  all_goals (intro h; cases h)

end

end Miniserde.Code
