import Verif.Proof.CodeRunAll
import Verif.Model.CodeMacro
import Verif.Proof.DeriveGen
import Verif.Props.Derive
import Verif.Props.Typed
import Verif.Proof.SerLib

/-!
# Running the generated code, statement by statement
-/

namespace Miniserde.Code

open Expand (Src Ns Lib Meaning)

section

variable {α γ : Type}

/-- Derived `Deserialize` of a struct, run with any keys and any stores into the places that are handed out: every key gets the place of the first field with that name, or the visitor that ignores
everything; `finish` succeeds exactly if every field has a content in the end (the last one stored, or the default of its type), and then the result is the struct with these values in these fields, and the
builder's fields are empty; otherwise it fails and the place of the result keeps what it had. -/
theorem C90_struct_de (fs : List (Field α)) (hd : (fs.map Field.ident).Nodup) (ho : str! "__out" ∉ fs.map Field.ident) (dflt : α → Option γ) (out : V γ) (steps : List (CStep γ)) :
    ∃ r m, runDe (deStruct fs) dflt out steps = some (steps.map (fun s => (fieldFor fs s.key).map fun f => ⟨1, [f.ident], none⟩), r, m) ∧
      ((∃ vs : List γ, fs.map (fun f => finalOf fs f steps (dflt f.ty)) = vs.map some ∧ r = .ok .unit ∧ m 0 = some (.some (structV fs vs)) ∧
          ∀ f ∈ fs, Place.read m ⟨1, [f.ident], none⟩ = some .none) ∨
       ((∃ f ∈ fs, finalOf fs f steps (dflt f.ty) = none) ∧ r = .err .error ∧ m 0 = some out)) := by
  obtain ⟨r, m, h1, h2⟩ := run_de (dflt := dflt) hd ho out steps
  refine ⟨r, m, h1, ?_⟩
  rcases h2 with ⟨vs, a, b, c, d⟩ | h2
  · exact .inl ⟨vs, a, b, c, fun f hf => read_field (List.mem_map_of_mem hf) d⟩
  · exact .inr h2

/-- Derived `Serialize` of a struct: the `i`-th call of `next` returns the name of the `i`-th field and a reference to it (in the value being serialized, which is not changed), and after the last
field `None`, for ever. -/
theorem C90_struct_ser (fs : List (Field α)) (dflt : α → Option γ) (vs : List γ) (hv : vs.length = fs.length) (hd : (fs.map Field.ident).Nodup) (n : Nat) :
    ∃ m, runSer (serStruct fs) dflt (structV fs vs) n = some ((List.range n).map (fun i => match fs[i]? with
        | some f => .some (.pair (.borrowed (.str f.wire)) (.ref ⟨0, [f.ident], none⟩))
        | none => .none), m) ∧
      m 0 = some (structV fs vs) ∧
      ∀ (i : Nat) (f : Field α), fs[i]? = some f → Place.read m ⟨0, [f.ident], none⟩ = vs[i]?.map .user := by
  have key := run_nexts (fs := fs) (dflt := dflt) n 0 ((Mem.set (fun _ => none) 0 (structV fs vs)).set 1 (mapV 0)) (set_same ..)
  simp only [Nat.zero_add] at key
  rw [runSer, call_serBegin]
  refine ⟨_, key, ?_, ?_⟩
  · split
    · rfl
    · rfl
  · intro i f hf
    have h0 : (if n = 0 then (Mem.set (fun _ => none) 0 (structV fs vs)).set 1 (mapV 0) else ((Mem.set (fun _ => none) 0 (structV fs vs)).set 1 (mapV 0)).set 1 (mapV n)) 0 =
        some (structV fs vs) := by
      split <;> rfl
    simp only [Place.read]
    rw [h0]
    simp only [Option.bind_some, structV, readAt]
    obtain ⟨hi, e⟩ := List.getElem?_eq_some_iff.1 hf
    have hi' : i < vs.length := hv ▸ hi
    have : ((fs.map Field.ident).zip (vs.map V.user)).find? (fun g => g.1 == f.ident) = some (f.ident, .user vs[i]) := by
      have hm : (f.ident, V.user vs[i]) ∈ (fs.map Field.ident).zip (vs.map V.user) := by
        refine List.mem_iff_getElem.2 ⟨i, by simp; omega, ?_⟩
        simp [e]
      cases hq : ((fs.map Field.ident).zip (vs.map V.user)).find? (fun g => g.1 == f.ident) with
      | none =>
        have := List.find?_eq_none.1 hq _ hm
        simp at this
      | some q =>
        have h1 := List.find?_some hq
        rw [beq_iff_eq] at h1
        have h2 := List.mem_of_find?_eq_some hq
        have hnd : (((fs.map Field.ident).zip (vs.map V.user)).map Prod.fst).Nodup := by
          rw [List.map_fst_zip (by simp [hv])]
          exact hd
        rw [nodup_inj hnd h2 hm h1]
    rw [this, List.getElem?_eq_getElem hi']
    rfl

/-- Derived `Deserialize` of an enum: a string is the variant with that name, the first if there are several, or an error that leaves the place of the result alone. -/
theorem C90_enum_de (vs : List Variant) (dflt : α → Option γ) (out : V γ) (s : Bytes) :
    runString (deEnum vs : Expansion α) dflt out s = match vs.find? fun v => v.wire == s with
      | some v => some (.ok .unit, some (.some (.variant v.ident)))
      | none => some (.err .error, some out) := by
  have h1 : ∀ m : Mem γ, invoke (deEnum vs : Expansion α) dflt .deserialize (str! "begin") .none (.some (.ref ⟨0, [], .none⟩)) m = some (.returns (.ref ⟨0, [], some (str! "__Visitor")⟩) m) := fun m => rfl
  rw [runString, h1]
  simp only [call_string (dflt := dflt) (set_same (fun _ => none) 0 out)]
  cases vs.find? fun v => v.wire == s with
  | none => rfl
  | some v => rfl

/-- Derived `Serialize` of an enum: a variant is written as its name. -/
theorem C90_enum_ser (vs : List Variant) (hd : (vs.map Variant.ident).Nodup) (dflt : α → Option γ) (v : Variant) (hv : v ∈ vs) :
    runBegin (serEnum vs : Expansion α) dflt (.variant v.ident) = some (.fragmentStr (.borrowed (.str v.wire))) := by
  rw [runBegin, call_enumBegin (set_same ..)]
  cases e : vs.find? fun u => u.ident == v.ident with
  | none =>
    have := List.find?_eq_none.1 e v hv
    simp at this
  | some u =>
    have h1 := List.find?_some e
    rw [beq_iff_eq] at h1
    rw [nodup_inj hd (List.mem_of_find?_eq_some e) hv h1]
    rfl

end

/-! ## The macros -/

theorem inputFields_eq {fs : List DField} {ns : List Bytes} (hi : ∀ f ∈ fs, f.ident.Ok) (h : FieldNames fs ns) :
    inputFields fs = some ((fs.zip ns).map fun p => ⟨p.1.ident.name, p.2, p.1.ty⟩) := by
  unfold inputFields
  rw [(fieldNames_iff hi).2 h]

/-- The macros expand supported declarations to the code above, with the names the declaration gives, and all others to an error. -/
theorem C90_macro (input : DeriveInput) (hi : input.Ok) :
    (∀ id attrs g w fs ns, input = ⟨id, attrs, g, w, .structNamed fs⟩ → FieldNames fs ns →
      macroDe input = deStruct ((fs.zip ns).map fun p => ⟨p.1.ident.name, p.2, p.1.ty⟩) ∧ macroSer input = serStruct ((fs.zip ns).map fun p => ⟨p.1.ident.name, p.2, p.1.ty⟩)) ∧
    (∀ id attrs vs ns, input = ⟨id, attrs, false, false, .enum vs⟩ → VariantNames vs ns →
      macroDe input = deEnum ((vs.zip ns).map fun p => ⟨p.1.ident.name, p.2⟩) ∧ macroSer input = serEnum ((vs.zip ns).map fun p => ⟨p.1.ident.name, p.2⟩)) ∧
    ((¬ ∃ ns, Supported input ns) → macroDe input = deFallback ∧ macroSer input = serFallback) := by
  refine ⟨?_, ?_, ?_⟩
  · rintro id attrs g w fs ns rfl h
    have e := inputFields_eq hi h
    constructor
    · simp only [macroDe, e]
    · simp only [macroSer, e]
  · rintro id attrs vs ns rfl h
    have e : inputVariants vs = some ((vs.zip ns).map fun p => ⟨p.1.ident.name, p.2⟩) := by
      obtain ⟨⟨is, hu⟩, hn⟩ := (variantNames_iff hi).2 h
      have he := unit_idents hu
      subst he
      unfold inputVariants
      simp only [hu, hn]
      rw [List.zip_map_left, List.map_map]
      rfl
    have e' : plainVariants ⟨id, attrs, false, false, .enum vs⟩ vs = some ((vs.zip ns).map fun p => ⟨p.1.ident.name, p.2⟩) := by
      simp only [plainVariants, Bool.or_self, e]
      rfl
    constructor
    · simp only [macroDe, e']
    · simp only [macroSer, e']
  · intro h
    obtain ⟨id, attrs, g, w, d⟩ := input
    cases d with
    | structUnnamed => exact ⟨rfl, rfl⟩
    | structUnit => exact ⟨rfl, rfl⟩
    | union => exact ⟨rfl, rfl⟩
    | structNamed fs =>
      have e : inputFields fs = none := by
        unfold inputFields
        cases e : collectAll nameOfField fs with
        | none => rfl
        | some ns => exact absurd ⟨ns, .strct ((fieldNames_iff hi).1 e)⟩ h
      constructor
      · simp only [macroDe, e]
      · simp only [macroSer, e]
    | enum vs =>
      have e : plainVariants ⟨id, attrs, g, w, .enum vs⟩ vs = none := by
        unfold plainVariants
        split
        · rfl
        · rename_i hg
          simp only [Bool.or_eq_true, not_or, Bool.not_eq_true] at hg
          obtain ⟨rfl, rfl⟩ := hg
          unfold inputVariants
          cases e1 : collectAll unitVariant vs with
          | none => rfl
          | some is =>
            cases e2 : collectAll nameOfVariant vs with
            | none => rfl
            | some ns => exact absurd ⟨ns, .enm ((variantNames_iff hi).1 ⟨⟨is, e1⟩, e2⟩)⟩ h
      constructor
      · simp only [macroDe, e]
      · simp only [macroSer, e]

/-! ## The builder of the rest of the model -/

/-- The step, for the builder of the model. -/
def CStep.gen (s : CStep Val) : GenStep := ⟨s.key, s.store⟩

theorem takeFields_some : ∀ {l : List (Option Val)} {vs : List Val}, l = vs.map some → (takeFields l).1 = some vs
  | [], [], _ => rfl
  | [], v :: vs, h => by cases h
  | x :: l, [], h => by cases h
  | x :: l, v :: vs, h => by
    rw [List.map_cons, List.cons.injEq] at h
    obtain ⟨rfl, h⟩ := h
    rw [takeFields, takeFields_some h]
    rfl

theorem takeFields_none : ∀ {l : List (Option Val)}, none ∈ l → (takeFields l).1 = none
  | none :: l, _ => rfl
  | some v :: l, h => by
    have h' : none ∈ l := by simpa using h
    rw [takeFields, takeFields_none h']
    rfl

theorem find_of_findIdx {F : List (Field Ty)} {k : Bytes} :
    (F.findIdx? (fun f => f.wire == k) = none ∧ fieldFor F k = none) ∨ ∃ j f, F.findIdx? (fun f => f.wire == k) = some j ∧ F[j]? = some f ∧ fieldFor F k = some f := by
  unfold fieldFor
  induction F with
  | nil => exact .inl ⟨rfl, rfl⟩
  | cons g F ih =>
    rw [List.findIdx?_cons, List.find?_cons]
    cases g.wire == k with
    | true => exact .inr ⟨0, g, rfl, rfl, rfl⟩
    | false =>
      rcases ih with ⟨h1, h2⟩ | ⟨j, f, h1, h2, h3⟩
      · exact .inl ⟨by simp [h1], h2⟩
      · exact .inr ⟨j + 1, f, by simp [h1], by simpa using h2, h3⟩

theorem set_upd {F : List (Field Ty)} (hd : (F.map Field.ident).Nodup) {s : Bytes → Option Val} {j : Nat} {f : Field Ty} (hf : F[j]? = some f) (c : Option Val) :
    (F.map fun g => s g.ident).set j c = F.map fun g => upd s f.ident c g.ident := by
  apply List.ext_getElem?
  intro n
  rw [List.getElem?_set, List.getElem?_map, List.getElem?_map]
  obtain ⟨hj, e⟩ := List.getElem?_eq_some_iff.1 hf
  by_cases h : j = n
  · subst h
    rw [if_pos rfl, if_pos (by simpa using hj), hf]
    simp [upd]
  · rw [if_neg h]
    cases hn : F[n]? with
    | none => rfl
    | some g =>
      obtain ⟨hn', e'⟩ := List.getElem?_eq_some_iff.1 hn
      have : g.ident ≠ f.ident := by
        intro e2
        have h1 : (F.map Field.ident)[j]? = (F.map Field.ident)[n]? := by simp [hf, hn, e2]
        exact h ((List.getElem?_inj (by simpa using hj) hd).1 h1)
      simp [upd, this]

theorem core_run {E : Env} {i : Nat} {F : List (Field Ty)} (hd : (F.map Field.ident).Nodup) (hE : E.fields i = F.map fun f => (f.wire, f.ty)) :
    ∀ (steps : List (CStep Val)) (s : Bytes → Option Val),
    (∀ vs : List Val, F.map (fun f => finalOf F f steps (s f.ident)) = vs.map some →
      coreRun E (steps.map CStep.gen) (.strct i (F.map fun f => s f.ident)) = some (steps.map fun s => (fieldFor F s.key).map Field.ty, .ok (.strct vs))) ∧
    ((∃ f ∈ F, finalOf F f steps (s f.ident) = none) →
      coreRun E (steps.map CStep.gen) (.strct i (F.map fun f => s f.ident)) = some (steps.map fun s => (fieldFor F s.key).map Field.ty, .err)) := by
  intro steps
  induction steps with
  | nil =>
    intro s
    constructor
    · intro vs h
      have h' : F.map (fun f => s f.ident) = vs.map some := h
      rw [List.map_nil, coreRun, coreFinish_eq, takeFields_some h']
      rfl
    · rintro ⟨f, hf, e⟩
      rw [List.map_nil, coreRun, coreFinish_eq, takeFields_none (List.mem_map.2 ⟨f, hf, e⟩)]
      rfl
  | cons st ss ih =>
    intro s
    simp only [final_step]
    have ih := ih (stepS F st s)
    have hc : coreRun E ((st :: ss).map CStep.gen) (.strct i (F.map fun f => s f.ident)) =
        (coreRun E (ss.map CStep.gen) (.strct i (F.map fun f => stepS F st s f.ident))).map fun r => ((fieldFor F st.key).map Field.ty :: r.1, r.2) := by
      rw [List.map_cons, coreRun]
      simp only [CStep.gen, Core.child, hE, List.findIdx?_map]
      have hk : ((fun f : Bytes × Ty => f.1 == st.key) ∘ fun f : Field Ty => (f.wire, f.ty)) = fun f => f.wire == st.key := rfl
      rw [hk]
      rcases find_of_findIdx (F := F) (k := st.key) with ⟨h1, h2⟩ | ⟨j, f, h1, h2, h3⟩
      · have hs : stepS F st s = s := by
          unfold stepS
          rw [h2]
        simp only [h1, h2, hs]
        rfl
      · have hs : stepS F st s = upd s f.ident (st.store.getD (s f.ident)) := by
          unfold stepS
          rw [h3]
        simp only [h1, h3, List.getElem?_map, h2, Option.map_some, hs]
        congr 2
        cases e : st.store with
        | none =>
          rw [Option.getD_none, upd_same]
          rfl
        | some c =>
          rw [Option.getD_some, ← set_upd hd h2]
          rfl
    rw [hc]
    constructor
    · intro vs h
      rw [ih.1 vs h]
      rfl
    · intro h
      rw [ih.2 h]
      rfl

/-- The builder that the rest of the model uses for a derived struct (`Core.strct`) does, key by key and in the result, what the generated code does. -/
theorem C90_model (E : Env) (i : Nat) (F : List (Field Ty)) (hd : (F.map Field.ident).Nodup) (ho : str! "__out" ∉ F.map Field.ident) (hE : E.fields i = F.map fun f => (f.wire, f.ty))
    (out : V Val) (steps : List (CStep Val)) :
    ∃ r m core, runDe (deStruct F) Ty.default out steps = some (steps.map (fun s => (fieldFor F s.key).map fun f => ⟨1, [f.ident], none⟩), r, m) ∧
      Ty.core E (.strct i) true = some core ∧
      ((∃ vs : List Val, r = .ok .unit ∧ m 0 = some (.some (structV F vs)) ∧
          coreRun E (steps.map CStep.gen) core = some (steps.map fun s => (fieldFor F s.key).map Field.ty, .ok (.strct vs))) ∨
       (r = .err .error ∧ m 0 = some out ∧ coreRun E (steps.map CStep.gen) core = some (steps.map fun s => (fieldFor F s.key).map Field.ty, .err))) := by
  obtain ⟨r, m, h1, h2⟩ := C90_struct_de F hd ho Ty.default out steps
  obtain ⟨s, hs⟩ : ∃ s : Bytes → Option Val, ∀ f ∈ F, s f.ident = f.ty.default := by
    refine ⟨fun b => (F.find? fun f => f.ident == b).bind fun f => f.ty.default, fun f hf => ?_⟩
    cases e : F.find? fun g => g.ident == f.ident with
    | none =>
      have := List.find?_eq_none.1 e f hf
      simp at this
    | some g =>
      have h1 := List.find?_some e
      rw [beq_iff_eq] at h1
      simp only [e, Option.bind_some]
      rw [nodup_inj hd (List.mem_of_find?_eq_some e) hf h1]
  have hcore : Ty.core E (.strct i) true = some (.strct i (F.map fun f => s f.ident)) := by
    show some (Core.strct i ((E.fields i).map fun f => f.2.default)) = _
    rw [hE, List.map_map]
    congr 2
    exact List.map_congr_left fun f hf => (hs f hf).symm
  refine ⟨r, m, _, h1, hcore, ?_⟩
  have key := core_run hd hE steps s
  have he : ∀ f ∈ F, finalOf F f steps (s f.ident) = finalOf F f steps f.ty.default := fun f hf => by rw [hs f hf]
  rcases h2 with ⟨vs, a, b, c, -⟩ | ⟨⟨f, hf, a⟩, b, c⟩
  · exact .inl ⟨vs, b, c, key.1 vs (by rw [← a]; exact List.map_congr_left he)⟩
  · exact .inr ⟨b, c, key.2 ⟨f, hf, by rw [he f hf, a]⟩⟩

/-- The visitor of the rest of the model for a derived enum, and its serialization, do what the generated code does. -/
theorem C90_model_enum (E : Env) (order : Nat → List (Bytes × Val) → List (Bytes × Val)) (i : Nat) (vs : List Variant) (hd : (vs.map Variant.ident).Nodup) (hE : E.variants i = vs.map Variant.wire)
    (dflt : Ty → Option Val) :
    (∀ (out : V Val) (s : Bytes),
      (∃ j v, vs[j]? = some v ∧ scalarLeaf E (.enm i) (.str s) = some (.enm j) ∧ runString (deEnum vs : Expansion Ty) dflt out s = some (.ok .unit, some (.some (.variant v.ident)))) ∨
      (scalarLeaf E (.enm i) (.str s) = none ∧ runString (deEnum vs : Expansion Ty) dflt out s = some (.err .error, some out))) ∧
    (∀ j v h, vs[j]? = some v → beginVal E order (.enm i) (.enm j) h = (some (.str v.wire), h) ∧
      runBegin (serEnum vs : Expansion Ty) dflt (.variant v.ident) = some (.fragmentStr (.borrowed (.str v.wire)))) := by
  constructor
  · intro out s
    rw [C90_enum_de]
    have key : ∀ vs : List Variant, ((vs.map Variant.wire).findIdx? (· == s) = none ∧ vs.find? (fun v => v.wire == s) = none) ∨
        ∃ j v, (vs.map Variant.wire).findIdx? (· == s) = some j ∧ vs[j]? = some v ∧ vs.find? (fun v => v.wire == s) = some v := by
      intro vs
      induction vs with
      | nil => exact .inl ⟨rfl, rfl⟩
      | cons g F ih =>
        rw [List.map_cons, List.findIdx?_cons, List.find?_cons]
        cases g.wire == s with
        | true => exact .inr ⟨0, g, rfl, rfl, rfl⟩
        | false =>
          rcases ih with ⟨h1, h2⟩ | ⟨j, f, h1, h2, h3⟩
          · exact .inl ⟨by simp [h1], h2⟩
          · exact .inr ⟨j + 1, f, by simp [h1], by simpa using h2, h3⟩
    rcases key vs with ⟨h1, h2⟩ | ⟨j, v, h1, h2, h3⟩
    · refine .inr ⟨?_, by rw [h2]⟩
      rw [scalarLeaf, hE, h1]
      rfl
    · refine .inl ⟨j, v, h2, ?_, by rw [h3]⟩
      rw [scalarLeaf, hE, h1]
      rfl
  · intro j v h hv
    refine ⟨?_, C90_enum_ser vs hd dflt v (List.mem_of_getElem? hv)⟩
    rw [beginVal, hE, List.getElem?_map, hv]
    rfl

/-- The results of `n` calls of `next` on a map of the rest of the model. -/
def libNexts (E : Env) : Nat → Nat → SHeap → List (Option (Option (Bytes × (Ty × Val))))
  | 0, _, _ => []
  | n + 1, q, h => (mapNextLib E q h).1 :: libNexts E n q (mapNextLib E q h).2

/-- The results of the generated code (where a value is a reference to the place `p`) and those of the model are the same, one by one. -/
inductive SameEntries (m : Mem Val) : List (V Val) → List (Option (Option (Bytes × (Ty × Val)))) → Prop
  | nil : SameEntries m [] []
  | stop {rs os} (h : SameEntries m rs os) : SameEntries m (.none :: rs) (some none :: os)
  | entry {rs os} {k : Bytes} {p : Place} {t : Ty} {v : Val} (hp : p.read m = some (.user v)) (h : SameEntries m rs os) :
      SameEntries m (.some (.pair (.borrowed (.str k)) (.ref p)) :: rs) (some (some (k, (t, v))) :: os)

theorem lib_nexts {E : Env} {i : Nat} {vs : List Val} (hv : vs.length = (E.fields i).length) : ∀ (n k q : Nat) (h : SHeap), h.cells q = some (.strct i vs k) →
    libNexts E n q h = (List.range' k n).map fun j => match (E.fields i)[j]? with
      | some f => some (vs[j]?.map fun v => (f.1, (f.2, v)))
      | none => some none
  | 0, _, _, _, _ => rfl
  | n + 1, k, q, h, hq => by
    have hm : mapNextLib E q h = ((match (E.fields i)[k]? with
      | some f => some (vs[k]?.map fun v => (f.1, (f.2, v)))
      | none => some none), h.set q (.strct i vs (k + 1))) := by
      unfold mapNextLib
      rw [hq]
      simp only []
      cases e : (E.fields i)[k]? with
      | none => rfl
      | some f =>
        have hk : k < vs.length := by
          rw [hv]
          exact (List.getElem?_eq_some_iff.1 e).1
        simp only [List.getElem?_eq_getElem hk]
        rfl
    rw [libNexts, hm, List.range'_succ, List.map_cons, lib_nexts hv n (k + 1) q (h.set q (.strct i vs (k + 1))) (by simp [SHeap.set])]

/-- The stream of the rest of the model for a derived struct gives the same names and values as the generated code. -/
theorem C90_model_ser (E : Env) (order : Nat → List (Bytes × Val) → List (Bytes × Val)) (i : Nat) (F : List (Field Ty)) (hd : (F.map Field.ident).Nodup) (hE : E.fields i = F.map fun f => (f.wire, f.ty))
    (dflt : Ty → Option Val) (vs : List Val) (hv : vs.length = F.length) (h : SHeap) (n : Nat) :
    ∃ rs m q h', runSer (serStruct F) dflt (structV F vs) n = some (rs, m) ∧ beginVal E order (.strct i) (.strct vs) h = (some (.map q), h') ∧ SameEntries m rs (libNexts E n q h') := by
  obtain ⟨m, h1, -, h2⟩ := C90_struct_ser F dflt vs hv hd n
  refine ⟨_, m, h.next, (h.alloc (.strct i vs 0)).2, h1, rfl, ?_⟩
  rw [lib_nexts (by rw [hE, List.length_map, hv]) n 0 h.next _ (SHeap.alloc_cell ..), List.range_eq_range']
  generalize List.range' 0 n = l
  induction l with
  | nil => exact .nil
  | cons j l ih =>
    rw [List.map_cons, List.map_cons]
    cases e : F[j]? with
    | none =>
      simp only [hE, List.getElem?_map, e]
      simp only [hE, List.getElem?_map] at ih
      exact .stop ih
    | some f =>
      have hj : j < vs.length := by
        rw [hv]
        exact (List.getElem?_eq_some_iff.1 e).1
      have hr := h2 j f e
      rw [List.getElem?_eq_getElem hj] at hr
      simp only [hE, List.getElem?_map, e, List.getElem?_eq_getElem hj]
      simp only [hE, List.getElem?_map] at ih
      exact .entry hr ih

/-! ## Examples -/

/-- `struct S { a: u8, #[serde(rename = "t")] b: Option<u8> }`, with `None` as the default of `b`. -/
def exRun : List (Field Bool) := [⟨str! "a", str! "a", false⟩, ⟨str! "b", str! "t", true⟩]

/-- `Option<u8>` has a default, `u8` has not. -/
def exDefault (b : Bool) : Option Nat := if b then some 0 else none

/-- The keys `b` (not the name in documents), `a`, `t`, `a` again: the last store counts. -/
example : ∃ m, runDe (deStruct exRun) exDefault .none [⟨str! "b", none⟩, ⟨str! "a", some (some 1)⟩, ⟨str! "t", none⟩, ⟨str! "a", some (some 2)⟩] =
      some ([none, some ⟨1, [str! "a"], none⟩, some ⟨1, [str! "b"], none⟩, some ⟨1, [str! "a"], none⟩], .ok .unit, m) ∧
    m 0 = some (.some (.strct .target [(str! "a", .user 2), (str! "b", .user 0)])) := by
  obtain ⟨r, m, h1, ⟨vs, h2, rfl, h3, -⟩ | ⟨⟨f, hf, h2⟩, -⟩⟩ := C90_struct_de exRun (by decide) (by decide) exDefault .none
    [⟨str! "b", none⟩, ⟨str! "a", some (some 1)⟩, ⟨str! "t", none⟩, ⟨str! "a", some (some 2)⟩]
  · have h2 : [some 2, some 0] = vs.map some := h2
    obtain rfl : vs = [2, 0] := by
      match vs, h2 with
      | [a, b], h2 => simpa using h2.symm
    exact ⟨m, h1, h3⟩
  · rcases List.mem_cons.1 hf with rfl | hf
    · cases h2
    · rw [List.mem_singleton.1 hf] at h2
      cases h2

/-- Without the key `a` there is no value, and the result keeps what it had. -/
example : ∃ m, runDe (deStruct exRun) exDefault (.some .unit) [⟨str! "t", some (some 7)⟩] = some ([some ⟨1, [str! "b"], none⟩], .err .error, m) ∧ m 0 = some (.some .unit) := by
  obtain ⟨r, m, h1, ⟨vs, h2, -⟩ | ⟨-, rfl, h3⟩⟩ := C90_struct_de exRun (by decide) (by decide) exDefault (.some .unit) [⟨str! "t", some (some 7)⟩]
  · have h2 : [none, some 7] = vs.map some := h2
    match vs, h2 with
    | [a, b], h2 => simp at h2
  · exact ⟨m, h1, h3⟩

/-- Serialization of that struct: two entries, then the end. -/
example : ∃ m, runSer (serStruct exRun) exDefault (structV exRun [5, 6]) 3 = some
    ([.some (.pair (.borrowed (.str (str! "a"))) (.ref ⟨0, [str! "a"], none⟩)), .some (.pair (.borrowed (.str (str! "t"))) (.ref ⟨0, [str! "b"], none⟩)), .none], m) ∧
    Place.read m ⟨0, [str! "b"], none⟩ = some (.user 6) := by
  obtain ⟨m, h1, -, h2⟩ := C90_struct_ser exRun exDefault [5, 6] rfl (by decide) 3
  exact ⟨m, h1, h2 1 _ rfl⟩

/-- `enum E { A, #[serde(rename = "b")] B }`. -/
example :
    runString (deEnum [⟨str! "A", str! "A"⟩, ⟨str! "B", str! "b"⟩] : Expansion Bool) exDefault .none (str! "b") = some (.ok .unit, some (.some (.variant (str! "B")))) ∧
    runString (deEnum [⟨str! "A", str! "A"⟩, ⟨str! "B", str! "b"⟩] : Expansion Bool) exDefault .none (str! "B") = some (.err .error, some .none) ∧
    runBegin (serEnum [⟨str! "A", str! "A"⟩, ⟨str! "B", str! "b"⟩] : Expansion Bool) exDefault (.variant (str! "B")) = some (.fragmentStr (.borrowed (.str (str! "b")))) :=
  ⟨C90_enum_de _ exDefault _ _, C90_enum_de _ exDefault _ _, C90_enum_ser _ (by decide) exDefault ⟨str! "B", str! "b"⟩ (by simp)⟩

/-- The fields of the example environment as a declaration. -/
def exEnvFields : List (Field Ty) := [⟨str! "x", str! "x", .int true 32⟩, ⟨str! "label", str! "tag", .opt .string⟩, ⟨str! "next", str! "next", .opt (.box (.strct 0))⟩]

/-- A struct of the example environment: the builder of the model and the generated code give the same. -/
example (out : V Val) : ∃ r m core, runDe (deStruct exEnvFields) Ty.default out [⟨str! "x", some (some (.int 3))⟩, ⟨str! "label", none⟩] =
      some ([some ⟨1, [str! "x"], none⟩, none], r, m) ∧ Ty.core exEnv (.strct 0) true = some core ∧ r = .ok .unit ∧
      coreRun exEnv [⟨str! "x", some (some (.int 3))⟩, ⟨str! "label", none⟩] core = some ([some (.int true 32), none], .ok (.strct [.int 3, .optNone, .optNone])) := by
  obtain ⟨r, m, core, h1, h2, ⟨vs, h3, -, h4⟩ | ⟨-, -, h4⟩⟩ := C90_model exEnv 0 exEnvFields (by decide) (by decide) rfl out [⟨str! "x", some (some (.int 3))⟩, ⟨str! "label", none⟩]
  · obtain rfl := Option.some.inj h2
    exact ⟨r, m, _, h1, rfl, h3, rfl⟩
  · obtain rfl := Option.some.inj h2
    cases h4

/-- Its serialization. -/
example (order : Nat → List (Bytes × Val) → List (Bytes × Val)) : ∃ rs m q h', runSer (serStruct exEnvFields) Ty.default (structV exEnvFields [.int 3, .optNone, .optNone]) 4 = some (rs, m) ∧
    beginVal exEnv order (.strct 0) (.strct [.int 3, .optNone, .optNone]) .empty = (some (.map q), h') ∧ SameEntries m rs (libNexts exEnv 4 q h') ∧
    libNexts exEnv 4 q h' = [some (some (str! "x", (.int true 32, .int 3))), some (some (str! "tag", (.opt .string, .optNone))),
      some (some (str! "next", (.opt (.box (.strct 0)), .optNone))), some none] := by
  obtain ⟨rs, m, q, h', h1, h2, h3⟩ := C90_model_ser exEnv order 0 exEnvFields (by decide) rfl Ty.default [.int 3, .optNone, .optNone] rfl .empty 4
  obtain ⟨h4, h5⟩ := Prod.mk.inj h2
  cases h4
  exact ⟨rs, m, _, h', h1, h2, h3, by rw [← h5]; rfl⟩

/-- The enum of the example environment. -/
example (order : Nat → List (Bytes × Val) → List (Bytes × Val)) (h : SHeap) : beginVal exEnv order (.enm 0) (.enm 1) h = (some (.str (str! "light-blue")), h) ∧
    runBegin (serEnum [⟨str! "Red", str! "Red"⟩, ⟨str! "LightBlue", str! "light-blue"⟩] : Expansion Ty) Ty.default (.variant (str! "LightBlue")) =
      some (.fragmentStr (.borrowed (.str (str! "light-blue")))) :=
  (C90_model_enum exEnv order 0 [⟨str! "Red", str! "Red"⟩, ⟨str! "LightBlue", str! "light-blue"⟩] (by decide) rfl Ty.default).2 1 _ h rfl

/-- The declaration `struct S { #[serde(rename = "Ty",)] #[doc] r#type: bool, r#fn: () }`. -/
example (id : RIdent) : macroDe ⟨id, [], false, false, .structNamed exFields⟩ = deStruct [⟨str! "type", str! "Ty", .bool⟩, ⟨str! "fn", str! "fn", .unit⟩] :=
  ((C90_macro ⟨id, [], false, false, .structNamed exFields⟩ (fun f hf => by
    simp only [exFields, List.mem_cons, List.not_mem_nil, or_false] at hf
    rcases hf with rfl | rfl <;> (unfold RIdent.Ok; decide))).1 _ _ _ _ _ [str! "Ty", str! "fn"] rfl
      (.cons (.inl (.serde (s := [str! "Ty"]) (.cons _ .nil) (.skip (by decide) .nil))) (.cons (.inr ⟨.nil, rfl⟩) .nil))).1

end Miniserde.Code
