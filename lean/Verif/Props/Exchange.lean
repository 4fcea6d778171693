import Verif.Proof.Exchange
import Verif.Props.Conformance

/-!
# Programs of different versions exchange documents
-/

namespace Miniserde

/-- **C81.** A document without unknown members that is read as the old type is also read as the new type, where (other than in C56) the structs of the new type
may have further fields, which are `Option`s.  The added fields are `None`, the others have the corresponding values. -/
theorem C81_no_unknown_members (E : Env) (S : Nat → Nat → Prop) (hS : StructsGrow E S) (t t' : Ty) (hw : Widens E S t t') (s : Bytes) (j : Json)
    (hj : JText s j) (ht : Tidy E t j) (v : Val) (h : parseAs E t s = some (.ok v)) :
    ∃ v', parseAs E t' s = some (.ok v') ∧ Grows E t v t' v' := by
  obtain ⟨j', hj', hd⟩ := (parseAs_ok E).1 h
  cases JText.unique hj hj'
  obtain ⟨v', h1, h2⟩ := grow hS _ j (Nat.lt_succ_self _) t t' hw ht v hd
  exact ⟨v', (parseAs_ok E).2 ⟨j, hj, h1⟩, h2⟩

/-- **C81.** `to_string` writes no unknown members: whatever the old program reads back of its own output, the new program reads. -/
theorem C81_written (E : Env) (order : Nat → List (Bytes × Val) → List (Bytes × Val)) (ho : ∀ n ms, (order n ms).Perm ms) (hE : E.Utf8)
    {ryu : F64 → Bytes} {lit : F64 → NumLit} (hr : RyuSyntax ryu lit) (hn : ∀ i, ((E.fields i).map Prod.fst).Nodup) (S : Nat → Nat → Prop) (hS : StructsGrow E S) (t t' : Ty)
    (hw : Widens E S t t') (v : Val) (h : HasTy E t v) (o : Bytes) (hprint : PrintsAs E order ryu t v o) (v₀ : Val) (hback : parseAs E t o = some (.ok v₀)) :
    ∃ v', parseAs E t' o = some (.ok v') ∧ Grows E t v₀ t' v' := by
  obtain ⟨x, hx, -, hj, -⟩ := prints_encodes E order ho hE hr h hprint
  exact C81_no_unknown_members E S hS t t' hw o _ hj (hx.tidy hn) v₀ hback

/-- **C81.** Old writes, new reads: the output of `to_string` for a value of the old type (for which writing and reading is the identity, C33) is read as the
new type, as the corresponding value. -/
theorem C81_exchange (E : Env) (order : Nat → List (Bytes × Val) → List (Bytes × Val)) (ho : ∀ n ms, (order n ms).Perm ms) (hE : E.Utf8)
    {ryu : F64 → Bytes} {lit : F64 → NumLit} (hr : RyuSyntax ryu lit) (hn : ∀ i, ((E.fields i).map Prod.fst).Nodup) (S : Nat → Nat → Prop) (hS : StructsGrow E S) (t t' : Ty)
    (hw : Widens E S t t') (v : Val) (h : HasTy E t v) (hp : Plain E t v) (o : Bytes) (hprint : PrintsAs E order ryu t v o) :
    ∃ v₀ v', Same E t v v₀ ∧ parseAs E t' o = some (.ok v') ∧ Grows E t v₀ t' v' := by
  obtain ⟨v₀, h1, h2⟩ := C33_round_trip E order ho hE hr t v h hp o hprint
  obtain ⟨v', h3, h4⟩ := C81_written E order ho hE hr hn S hS t t' hw v h o hprint v₀ h1
  exact ⟨v₀, v', h2, h3, h4⟩

/-- **C81**, without hash maps: the value itself is what the new program gets. -/
theorem C81_exchange_exact (E : Env) (order : Nat → List (Bytes × Val) → List (Bytes × Val)) (ho : ∀ n ms, (order n ms).Perm ms) (hE : E.Utf8)
    {ryu : F64 → Bytes} {lit : F64 → NumLit} (hr : RyuSyntax ryu lit) (hn : ∀ i, ((E.fields i).map Prod.fst).Nodup) (hf : ∀ i, ∀ f ∈ E.fields i, f.2.noHash = true)
    (S : Nat → Nat → Prop) (hS : StructsGrow E S) (t t' : Ty) (ht : t.noHash = true) (hw : Widens E S t t') (v : Val) (h : HasTy E t v) (hp : Plain E t v)
    (o : Bytes) (hprint : PrintsAs E order ryu t v o) : ∃ v', parseAs E t' o = some (.ok v') ∧ Grows E t v t' v' :=
  C81_written E order ho hE hr hn S hS t t' hw v h o hprint v (C33_round_trip_exact E order ho hE hr hf t ht v h hp o hprint)

/-! ## Example -/

/-- Two versions of a recursive type:
```
struct V1 { id: u8, parts: Vec<V1> }
struct V2 { note: Option<String>, id: u8, parts: Vec<V2> }
``` -/
def exGrowth : Env where
  fields
    | 1 => [(str! "id", .int false 8), (str! "parts", .vec (.strct 1))]
    | 2 => [(str! "note", .opt .string), (str! "id", .int false 8), (str! "parts", .vec (.strct 2))]
    | _ => []
  variants _ := []
  keyParse _ s := some s
  keyLt _ := strLt
  keyShow _ s := s

/-- Either program reads what the other one writes: version 2 may replace version 1, and version 1 version 2. -/
theorem exGrowth_grow : StructsGrow exGrowth fun i i' => (i = 1 ∧ i' = 2) ∨ (i = 2 ∧ i' = 1) := by
  rintro i i' (⟨rfl, rfl⟩ | ⟨rfl, rfl⟩)
  · refine ⟨by decide, by decide, ?_⟩
    intro n t' h
    simp only [exGrowth, List.mem_cons, Prod.mk.injEq, List.not_mem_nil, or_false] at h
    rcases h with ⟨rfl, rfl⟩ | ⟨rfl, rfl⟩ | ⟨rfl, rfl⟩
    · exact .inr ⟨by decide, rfl⟩
    · exact .inl ⟨_, by simp [exGrowth], .refl _, by decide⟩
    · exact .inl ⟨.vec (.strct 1), by simp [exGrowth], .vec (.strct (.inl ⟨rfl, rfl⟩)), by decide⟩
  · refine ⟨by decide, by decide, ?_⟩
    intro n t' h
    simp only [exGrowth, List.mem_cons, Prod.mk.injEq, List.not_mem_nil, or_false] at h
    rcases h with ⟨rfl, rfl⟩ | ⟨rfl, rfl⟩
    · exact .inl ⟨_, by simp [exGrowth], .refl _, by decide⟩
    · exact .inl ⟨.vec (.strct 2), by simp [exGrowth], .vec (.strct (.inr ⟨rfl, rfl⟩)), by decide⟩

theorem exGrowth_names (i : Nat) : ((exGrowth.fields i).map Prod.fst).Nodup := by
  match i with
  | 0 | 1 | 2 => decide
  | _ + 3 => exact List.nodup_nil

theorem exGrowth_noHash : ∀ i, ∀ f ∈ exGrowth.fields i, f.2.noHash = true := by
  intro i f hf
  match i with
  | 0 => cases hf
  | 1 | 2 => simp only [exGrowth, List.mem_cons, List.not_mem_nil, or_false] at hf; rcases hf with rfl | rfl | rfl <;> rfl
  | _ + 3 => cases hf

theorem exGrowth_utf8 : exGrowth.Utf8 where
  fields i f hf := by
    match i with
    | 0 => cases hf
    | 1 | 2 =>
      refine valid_ascii ?_
      simp only [exGrowth, List.mem_cons, List.not_mem_nil, or_false] at hf
      rcases hf with rfl | rfl | rfl <;> decide
    | _ + 3 => cases hf
  variants i f hf := by cases hf

theorem exGrowth_plain : exGrowth.Plain where
  fieldTypes i f hf := by
    match i with
    | 0 => cases hf
    | 1 | 2 => simp only [exGrowth, List.mem_cons, List.not_mem_nil, or_false] at hf; rcases hf with rfl | rfl | rfl <;> rfl
    | _ + 3 => cases hf
  fieldNames := exGrowth_names
  variants i := List.nodup_nil
  keys _ _ := rfl
  order _ := strLt_linear

/-- What version 1 writes, version 2 reads. -/
example (v : Val) (h : HasTy exGrowth (.strct 1) v) (o : Bytes) (hprint : PrintsAs exGrowth exOrder (fun x => (exLit x).text) (.strct 1) v o) :
    ∃ v', parseAs exGrowth (.strct 2) o = some (.ok v') ∧ Grows exGrowth (.strct 1) v (.strct 2) v' :=
  C81_exchange_exact exGrowth exOrder (fun _ _ => .refl _) exGrowth_utf8 exRyu exGrowth_names exGrowth_noHash _ exGrowth_grow _ _ rfl
    (.strct (.inl ⟨rfl, rfl⟩)) v h (plain_of_type exGrowth_plain h rfl) o hprint

/-- What version 2 writes, version 1 reads. -/
example (v : Val) (h : HasTy exGrowth (.strct 2) v) (o : Bytes) (hprint : PrintsAs exGrowth exOrder (fun x => (exLit x).text) (.strct 2) v o) :
    ∃ v', parseAs exGrowth (.strct 1) o = some (.ok v') ∧ Grows exGrowth (.strct 2) v (.strct 1) v' :=
  C81_exchange_exact exGrowth exOrder (fun _ _ => .refl _) exGrowth_utf8 exRyu exGrowth_names exGrowth_noHash _ exGrowth_grow _ _ rfl
    (.strct (.inr ⟨rfl, rfl⟩)) v h (plain_of_type exGrowth_plain h rfl) o hprint

/-- One such document. -/
example :
    PrintsAs exGrowth exOrder (fun x => (exLit x).text) (.strct 1) (.strct [.int 1, .seq [.strct [.int 2, .seq []]]])
      (str! "{\"id\":1,\"parts\":[{\"id\":2,\"parts\":[]}]}") ∧
    parseAs exGrowth (.strct 2) (str! "{\"id\":1,\"parts\":[{\"id\":2,\"parts\":[]}]}") =
      some (.ok (.strct [.optNone, .int 1, .seq [.strct [.optNone, .int 2, .seq []]]])) :=
  ⟨printsWith_eq (n := 40) (by decide +kernel), okWith_eq (by decide +kernel)⟩

/-- A document from elsewhere may have a member that version 1 does not know and version 2 can not read. -/
example : parseAs exGrowth (.strct 1) (str! "{\"id\":1,\"parts\":[],\"note\":5}") = some (.ok (.strct [.int 1, .seq []])) ∧
    parseAs exGrowth (.strct 2) (str! "{\"id\":1,\"parts\":[],\"note\":5}") = some .err :=
  ⟨okWith_eq (by decide +kernel), isErr_eq (by decide +kernel)⟩

/-- The document `{"id":1,"parts":[]}` has no unknown members for version 1. -/
example (l : NumLit) : Tidy exGrowth (.strct 1) (.obj [(str! "id", .num l), (str! "parts", .arr [])]) := by
  refine .strct (by simp [exGrowth]) ?_
  intro m hm t ht
  simp only [List.mem_cons, List.not_mem_nil, or_false] at hm
  rcases hm with rfl | rfl <;> simp [exGrowth] at ht
  · exact .scalar (by simp) (by simp)
  · subst ht; exact .vec (by simp)

end Miniserde
