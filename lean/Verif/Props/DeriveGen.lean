import Verif.Proof.DeriveGen
import Verif.Props.Derive

/-!
# The code generated for a struct or enum does what the model says it does

`FieldNames fs ns`: the fields `fs` have the serialized names `ns`.  `E.fields i = ns.zip types` says that the struct is number `i` of the program.
The identifiers of a struct's fields are distinct, or rustc rejects the struct; the same for an enum's variants.
-/

namespace Miniserde

/-- **C48.** `#[derive(Deserialize)]` on a struct.  Whatever keys occur and whatever is written to the places handed out: for every key the generated
code hands out a place of the same type as the model's builder (or ignores it), and `finish` succeeds in the same cases, with the `n`-th field of the struct
literal holding what was stored for the `n`-th declared field.  The generated code never refers to a field that does not exist. -/
theorem C48_struct_de (E : Env) (i : Nat) (id : RIdent) (attrs : List Attr) (g w : Bool) (fs : List DField) (ns : List Bytes)
    (hi : ∀ f ∈ fs, f.ident.Ok) (hd : (fs.map (·.ident)).Nodup) (h : FieldNames fs ns) (hE : E.fields i = ns.zip (fs.map (·.ty))) :
    ∃ state keyArms takes ctor core,
      deriveDe ⟨id, attrs, g, w, .structNamed fs⟩ = .impl (.strct state keyArms takes ctor) ∧ Ty.core E (.strct i) true = some core ∧
      ∀ steps : List GenStep, ∃ tys,
        (∃ vs : List Val, vs.length = fs.length ∧
          genRun state keyArms takes ctor steps (genState state) = some (tys, .ok ((fs.map (·.ident)).zip vs)) ∧
          coreRun E steps core = some (tys, .ok (.strct vs))) ∨
        (genRun state keyArms takes ctor steps (genState state) = some (tys, .err) ∧ coreRun E steps core = some (tys, .err)) := by
  obtain ⟨ka, na, h1, -, h3, -⟩ := C39_struct id attrs g w fs ns hi h
  have hl : ns.length = (fs.map (·.ident)).length := by rw [List.length_map, h.length]
  have hs : (fs.map fun f => (f.ident, f.ty)) = (fs.map (·.ident)).zip (fs.map (·.ty)) := by rw [List.zip_map']
  refine ⟨_, ka, _, _, _, h1, rfl, fun steps => ?_⟩
  have h0 : genState (fs.map fun f => (f.ident, f.ty)) = (fs.map (·.ident)).zip ((E.fields i).map fun f => f.2.default) := by
    have : (E.fields i).map (fun f => f.2.default) = (fs.map (·.ty)).map Ty.default := by
      rw [← List.map_snd_zip (l₁ := ns) (l₂ := fs.map (·.ty)) (by simp [h.length]), ← hE, List.map_map]
      rfl
    rw [this, List.map_map, List.zip_map']
    simp [genState, List.map_map, Function.comp_def]
  have := genRun_eq (E := E) (i := i) hd hl (by simp) hE h3 steps ((E.fields i).map fun f => f.2.default)
    (by rw [List.length_map, List.length_map, hE, List.length_zip, List.length_map, h.length, Nat.min_self])
  rw [← h0, ← hs] at this
  obtain ⟨tys, ⟨vs, hv, e⟩ | e⟩ := this
  · exact ⟨tys, .inl ⟨vs, by simpa using hv, e⟩⟩
  · exact ⟨tys, .inr e⟩

/-- **C48.** `#[derive(Serialize)]` on a struct with field values `vs`: the generated `next` gives, call by call and also after the end, what the
model's stream gives. -/
theorem C48_struct_ser (E : Env) (i : Nat) (id : RIdent) (attrs : List Attr) (g w : Bool) (fs : List DField) (ns : List Bytes)
    (hi : ∀ f ∈ fs, f.ident.Ok) (hd : (fs.map (·.ident)).Nodup) (h : FieldNames fs ns) (hE : E.fields i = ns.zip (fs.map (·.ty)))
    (order : Nat → List (Bytes × Val) → List (Bytes × Val)) (vs : List Val) (hv : vs.length = fs.length) (heap : SHeap) :
    ∃ nextArms q, deriveSer ⟨id, attrs, g, w, .structNamed fs⟩ = .impl (.strct nextArms) ∧
      (beginVal E order (.strct i) (.strct vs) heap).1 = some (.map q) ∧
      ∀ n, genNexts nextArms ((fs.map (·.ident)).zip ((fs.map (·.ty)).zip vs)) n 0 =
        libNexts E q n (beginVal E order (.strct i) (.strct vs) heap).2 := by
  obtain ⟨ka, na, -, h2, -, h4⟩ := C39_struct id attrs g w fs ns hi h
  have hl : ns.length = (fs.map (·.ident)).length := by rw [List.length_map, h.length]
  refine ⟨na, heap.next, h2, rfl, fun n => ?_⟩
  exact genNexts_eq hd hl (by simp) (by simp [hv]) hE h4 heap.next n 0 _ (by simp [beginVal, newMap, SHeap.alloc])

/-- **C48.** `#[derive(Deserialize)]` on an enum: the generated `string` writes the variant that the model writes, or fails like it. -/
theorem C48_enum_de (E : Env) (i : Nat) (id : RIdent) (attrs : List Attr) (vs : List DVariant) (ns : List Bytes) (hi : ∀ v ∈ vs, v.ident.Ok)
    (hd : (vs.map (·.ident)).Nodup) (h : VariantNames vs ns) (hE : E.variants i = ns) :
    ∃ arms, deriveDe ⟨id, attrs, false, false, .enum vs⟩ = .impl (.enm arms) ∧
      ∀ s, (∃ j v, (vs.map (·.ident))[j]? = some v ∧ genString arms s = some v ∧ scalarLeaf E (.enm i) (.str s) = some (.enm j)) ∨
        (genString arms s = none ∧ scalarLeaf E (.enm i) (.str s) = none) := by
  obtain ⟨da, sa, h1, -, h3, -⟩ := C39_enum id attrs vs ns hi hd h
  refine ⟨da, h1, fun s => ?_⟩
  unfold genString
  have : scalarLeaf E (.enm i) (.str s) = ((E.variants i).findIdx? (· == s)).map .enm := rfl
  rw [h3, this, hE]
  cases hx : ns.findIdx? (· == s) with
  | none => exact .inr ⟨rfl, rfl⟩
  | some j =>
    have hj : j < vs.length := h.length ▸ (List.findIdx?_eq_some_iff_findIdx_eq.1 hx).1
    have hg : (vs.map (·.ident))[j]? = some vs[j].ident := by
      rw [List.getElem?_map, List.getElem?_eq_getElem hj]
      rfl
    exact .inl ⟨j, vs[j].ident, hg, hg, rfl⟩

/-- **C48.** `#[derive(Serialize)]` on an enum: for every variant, the generated `begin` gives the string that the model gives; all variants are covered. -/
theorem C48_enum_ser (E : Env) (i : Nat) (id : RIdent) (attrs : List Attr) (vs : List DVariant) (ns : List Bytes) (hi : ∀ v ∈ vs, v.ident.Ok)
    (hd : (vs.map (·.ident)).Nodup) (h : VariantNames vs ns) (hE : E.variants i = ns)
    (order : Nat → List (Bytes × Val) → List (Bytes × Val)) (heap : SHeap) :
    ∃ arms, deriveSer ⟨id, attrs, false, false, .enum vs⟩ = .impl (.enm arms) ∧
      ∀ (j : Nat) v, (vs.map (·.ident))[j]? = some v →
        ∃ s, genBegin arms v = some s ∧ (beginVal E order (.enm i) (.enm j) heap).1 = some (.str s) := by
  obtain ⟨da, sa, -, h2, -, h4⟩ := C39_enum id attrs vs ns hi hd h
  refine ⟨sa, h2, fun j v hv => ?_⟩
  have hj : j < ns.length := by
    rw [h.length]
    have := (List.getElem?_eq_some_iff.1 hv).1
    simpa using this
  refine ⟨ns[j], ?_, ?_⟩
  · unfold genBegin
    rw [h4 j v hv, List.getElem?_eq_getElem hj]
  · show ((E.variants i)[j]?.map Frag.str) = _
    rw [hE, List.getElem?_eq_getElem hj]
    rfl

/-! ## Instances -/

/-- `struct S { #[serde(rename = "Ty")] r#type: bool, r#fn: () }` with the keys `fn`, `x`, `Ty`, where the places are filled. -/
example : (exFields.map (·.ident)).Nodup := by decide

example : (match deriveDe ⟨⟨false, str! "S"⟩, [], false, false, .structNamed exFields⟩ with
    | .impl (.strct state keyArms takes ctor) =>
      genRun state keyArms takes ctor [⟨str! "fn", some (some .null)⟩, ⟨str! "x", none⟩, ⟨str! "Ty", some (some (.bool true))⟩] (genState state)
    | _ => none) =
    some ([some .unit, none, some .bool], .ok [(⟨true, str! "type"⟩, .bool true), (⟨true, str! "fn"⟩, .null)]) := by rfl

end Miniserde
