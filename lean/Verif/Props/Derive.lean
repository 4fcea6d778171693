import Verif.Proof.Derive
import Verif.Spec.Decode

/-!
# The derive macros

`Supported input ns` (`Spec/Derive.lean`): the input is a struct with named fields or a C-style enum, every `serde` attribute on its fields or variants is
a list of renames, at most one per field or variant, and `ns` are the resulting names in order.
-/

namespace Miniserde

/-- Names are determined by the input. -/
theorem hasName_unique {as : List Attr} {i : RIdent} (hi : i.Ok) {n n' : Bytes} (h : HasName as i n) (h' : HasName as i n') : n = n' := by
  have h1 := (name_iff hi).2 h
  have h2 := (name_iff hi).2 h'
  rw [h1] at h2
  exact Option.some.inj h2

/-- **C38.** The list of names is determined by the input. -/
theorem C38_names_unique (input : DeriveInput) (hi : input.Ok) (ns ns' : List Bytes) (h : Supported input ns) (h' : Supported input ns') : ns = ns' := by
  cases h with
  | strct h =>
    cases h' with
    | strct h' =>
      have h1 := (fieldNames_iff hi).2 h
      have h2 := (fieldNames_iff hi).2 h'
      rw [h1] at h2
      exact Option.some.inj h2
  | enm h =>
    cases h' with
    | enm h' =>
      have h1 := ((variantNames_iff hi).2 h).2
      have h2 := ((variantNames_iff hi).2 h').2
      rw [h1] at h2
      exact Option.some.inj h2

/-- **C38, C39.** For a supported struct both macros generate an impl; keys are matched against, and members written under, the names, the `n`-th
name standing for the `n`-th field. -/
theorem C39_struct (id : RIdent) (attrs : List Attr) (g w : Bool) (fs : List DField) (ns : List Bytes)
    (hi : ∀ f ∈ fs, f.ident.Ok) (h : FieldNames fs ns) :
    ∃ keyArms nextArms,
      deriveDe ⟨id, attrs, g, w, .structNamed fs⟩ =
        .impl (.strct (fs.map fun f => (f.ident, f.ty)) keyArms (fs.map (·.ident)) (fs.map (·.ident))) ∧
      deriveSer ⟨id, attrs, g, w, .structNamed fs⟩ = .impl (.strct nextArms) ∧
      (∀ k, strMatch keyArms k = (ns.findIdx? (· == k)).bind fun j => (fs.map (·.ident))[j]?) ∧
      (∀ n, stateMatch nextArms n = (ns.zip (fs.map (·.ident)))[n]?) := by
  have hn := (fieldNames_iff hi).2 h
  have hl : ns.length = (fs.map (·.ident)).length := by rw [List.length_map, h.length]
  refine ⟨ns.zip (fs.map (·.ident)), (List.range (fs.map (·.ident)).length).zip (ns.zip (fs.map (·.ident))), ?_, ?_, find_zip hl, fun n => ?_⟩
  · unfold deriveDe deTryExpand deStruct
    simp only [hn]
    congr 2
    rw [List.zip_map']
  · unfold deriveSer serTryExpand serStruct
    simp only [hn]
  · unfold stateMatch
    have := find_range (ns.zip (fs.map (·.ident))) 0 n
    rw [Nat.zero_add] at this
    rw [← this, List.range_eq_range']
    congr 3
    rw [List.length_zip, hl, Nat.min_self]

/-- **C38, C39.** The same for a supported enum, whose variants are distinct as in any Rust program. -/
theorem C39_enum (id : RIdent) (attrs : List Attr) (vs : List DVariant) (ns : List Bytes) (hi : ∀ v ∈ vs, v.ident.Ok)
    (hd : (vs.map (·.ident)).Nodup) (h : VariantNames vs ns) :
    ∃ deArms serArms,
      deriveDe ⟨id, attrs, false, false, .enum vs⟩ = .impl (.enm deArms) ∧
      deriveSer ⟨id, attrs, false, false, .enum vs⟩ = .impl (.enm serArms) ∧
      (∀ s, strMatch deArms s = (ns.findIdx? (· == s)).bind fun j => (vs.map (·.ident))[j]?) ∧
      (∀ (j : Nat) v, (vs.map (·.ident))[j]? = some v → variantMatch serArms v = ns[j]?) := by
  obtain ⟨⟨is, hu⟩, hn⟩ := (variantNames_iff hi).2 h
  have hl : ns.length = (vs.map (·.ident)).length := by rw [List.length_map, h.length]
  have he := unit_idents hu
  subst he
  refine ⟨ns.zip (vs.map (·.ident)), (vs.map (·.ident)).zip ns, ?_, ?_, find_zip hl, ?_⟩
  · unfold deriveDe deTryExpand deEnum
    simp [hn, hu]
  · unfold deriveSer serTryExpand serEnum
    simp [hn, hu]
  · intro j v hv
    exact variantMatch_zip hd hl hv

/-- **C38.** `#[derive(Deserialize)]` generates an impl exactly for the supported inputs; for all others it expands to a compile error. -/
theorem C38_deserialize (input : DeriveInput) (hi : input.Ok) : (∃ i, deriveDe input = .impl i) ↔ ∃ ns, Supported input ns := by
  obtain ⟨id, attrs, g, w, data⟩ := input
  cases data with
  | structNamed fs =>
    constructor
    · rintro ⟨i, h⟩
      unfold deriveDe deTryExpand deStruct at h
      cases hn : collectAll nameOfField fs with
      | none => simp [hn] at h
      | some ns => exact ⟨ns, .strct ((fieldNames_iff hi).1 hn)⟩
    · rintro ⟨ns, h⟩
      cases h with
      | strct h =>
        obtain ⟨_, _, h1, -⟩ := C39_struct id attrs g w fs ns hi h
        exact ⟨_, h1⟩
  | enum vs =>
    constructor
    · rintro ⟨i, h⟩
      unfold deriveDe deTryExpand deEnum at h
      cases g <;> cases w <;> simp at h
      cases hu : collectAll unitVariant vs with
      | none => simp [hu] at h
      | some is =>
        cases hn : collectAll nameOfVariant vs with
        | none => simp [hu, hn] at h
        | some ns => exact ⟨ns, .enm ((variantNames_iff hi).1 ⟨⟨is, hu⟩, hn⟩)⟩
    · rintro ⟨ns, h⟩
      cases h with
      | enm h =>
        obtain ⟨⟨is, hu⟩, hn⟩ := (variantNames_iff hi).2 h
        unfold deriveDe deTryExpand deEnum
        simp [hu, hn]
  | structUnnamed => exact ⟨fun ⟨i, h⟩ => (nomatch h), fun ⟨ns, h⟩ => (nomatch h)⟩
  | structUnit => exact ⟨fun ⟨i, h⟩ => (nomatch h), fun ⟨ns, h⟩ => (nomatch h)⟩
  | union => exact ⟨fun ⟨i, h⟩ => (nomatch h), fun ⟨ns, h⟩ => (nomatch h)⟩

/-- **C38.** The same for `#[derive(Serialize)]`. -/
theorem C38_serialize (input : DeriveInput) (hi : input.Ok) : (∃ i, deriveSer input = .impl i) ↔ ∃ ns, Supported input ns := by
  obtain ⟨id, attrs, g, w, data⟩ := input
  cases data with
  | structNamed fs =>
    constructor
    · rintro ⟨i, h⟩
      unfold deriveSer serTryExpand serStruct at h
      cases hn : collectAll nameOfField fs with
      | none => simp [hn] at h
      | some ns => exact ⟨ns, .strct ((fieldNames_iff hi).1 hn)⟩
    · rintro ⟨ns, h⟩
      cases h with
      | strct h =>
        obtain ⟨_, _, -, h1, -⟩ := C39_struct id attrs g w fs ns hi h
        exact ⟨_, h1⟩
  | enum vs =>
    constructor
    · rintro ⟨i, h⟩
      unfold deriveSer serTryExpand serEnum at h
      cases g <;> cases w <;> simp at h
      cases hu : collectAll unitVariant vs with
      | none => simp [hu] at h
      | some is =>
        cases hn : collectAll nameOfVariant vs with
        | none => simp [hu, hn] at h
        | some ns => exact ⟨ns, .enm ((variantNames_iff hi).1 ⟨⟨is, hu⟩, hn⟩)⟩
    · rintro ⟨ns, h⟩
      cases h with
      | enm h =>
        obtain ⟨⟨is, hu⟩, hn⟩ := (variantNames_iff hi).2 h
        unfold deriveSer serTryExpand serEnum
        simp [hu, hn]
  | structUnnamed => exact ⟨fun ⟨i, h⟩ => (nomatch h), fun ⟨ns, h⟩ => (nomatch h)⟩
  | structUnit => exact ⟨fun ⟨i, h⟩ => (nomatch h), fun ⟨ns, h⟩ => (nomatch h)⟩
  | union => exact ⟨fun ⟨i, h⟩ => (nomatch h), fun ⟨ns, h⟩ => (nomatch h)⟩

/-- **C39.** Both macros accept, or both report an error. -/
theorem C39_agree (input : DeriveInput) (hi : input.Ok) : (∃ i, deriveDe input = .impl i) ↔ ∃ i, deriveSer input = .impl i :=
  (C38_deserialize input hi).trans (C38_serialize input hi).symm

/-- **C38.** `serde` attributes on the item itself are not looked at (they are neither honoured nor rejected). -/
theorem C38_item_attributes_ignored (id : RIdent) (a a' : List Attr) (g w : Bool) (d : DData) :
    deriveDe ⟨id, a, g, w, d⟩ = deriveDe ⟨id, a', g, w, d⟩ ∧ deriveSer ⟨id, a, g, w, d⟩ = deriveSer ⟨id, a', g, w, d⟩ := ⟨rfl, rfl⟩

/-- **C39.** The generated code is what the models of derived structs and enums (`Env.fields`, `Env.variants`) assume: a key is looked up as in
`decode`, the `n`-th member written is the `n`-th field. -/
theorem C39_model (E : Env) (i : Nat) (id : RIdent) (attrs : List Attr) (g w : Bool) (fs : List DField) (ns : List Bytes)
    (hi : ∀ f ∈ fs, f.ident.Ok) (h : FieldNames fs ns) (hE : E.fields i = ns.zip (fs.map (·.ty))) :
    ∃ st keyArms takes ctor nextArms,
      deriveDe ⟨id, attrs, g, w, .structNamed fs⟩ = .impl (.strct st keyArms takes ctor) ∧
      deriveSer ⟨id, attrs, g, w, .structNamed fs⟩ = .impl (.strct nextArms) ∧
      st.map Prod.snd = (E.fields i).map Prod.snd ∧ takes = st.map Prod.fst ∧ ctor = st.map Prod.fst ∧
      (∀ k, strMatch keyArms k = (fieldIdx (E.fields i) k).bind fun j => (st.map Prod.fst)[j]?) ∧
      (∀ n, stateMatch nextArms n = ((E.fields i)[n]?).bind fun f => ((st.map Prod.fst)[n]?).map fun id => (f.1, id)) := by
  obtain ⟨ka, na, h1, h2, h3, h4⟩ := C39_struct id attrs g w fs ns hi h
  have hl := h.length
  have hid : (fs.map fun f => (f.ident, f.ty)).map Prod.fst = fs.map (·.ident) := by simp [List.map_map, Function.comp_def]
  have hn : (E.fields i).map Prod.fst = ns := by rw [hE, List.map_fst_zip (by simp [hl])]
  refine ⟨_, ka, _, _, na, h1, h2, ?_, hid.symm, hid.symm, fun k => ?_, fun n => ?_⟩
  · rw [hE, List.map_snd_zip (by simp [hl])]
    simp [List.map_map, Function.comp_def]
  · rw [h3, hid]
    congr 1
    unfold fieldIdx
    rw [← hn, List.findIdx?_map]
    rfl
  · rw [h4, hid]
    have e1 : ((E.fields i)[n]?).map Prod.fst = ns[n]? := by rw [← List.getElem?_map, hn]
    unfold List.zip; rw [List.getElem?_zipWith']
    rw [← e1]
    cases (E.fields i)[n]? <;> cases (fs.map (·.ident))[n]? <;> rfl

/-! ## Instances -/

/-- `struct S { #[serde(rename = "Ty",)] #[doc] r#type: bool, r#fn: () }` -/
def exFields : List DField :=
  [⟨⟨true, str! "type"⟩, [⟨[str! "serde"], .list [.path [str! "rename"], .eq, .str (str! "Ty"), .comma]⟩, ⟨[str! "doc"], .notList⟩], .bool⟩,
   ⟨⟨true, str! "fn"⟩, [], .unit⟩]

example : FieldNames exFields [str! "Ty", str! "fn"] ∧ ∀ f ∈ exFields, f.ident.Ok :=
  ⟨.cons (.inl (.serde (s := [str! "Ty"]) (.cons _ .nil) (.skip (by decide) .nil))) (.cons (.inr ⟨.nil, rfl⟩) .nil),
   fun f hf => by
    simp only [exFields, List.mem_cons, List.not_mem_nil, or_false] at hf
    rcases hf with rfl | rfl <;> (unfold RIdent.Ok; decide)⟩

/-- Two renames are rejected, also in two attributes. -/
example (id : RIdent) : deriveDe ⟨id, [], false, false, .structNamed [⟨⟨false, str! "a"⟩,
    [⟨[str! "serde"], .list [.path [str! "rename"], .eq, .str (str! "b")]⟩, ⟨[str! "serde"], .list [.path [str! "rename"], .eq, .str (str! "b")]⟩],
    .unit⟩]⟩ = .compileError := by rfl

end Miniserde
