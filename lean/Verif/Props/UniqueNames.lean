import Verif.Spec.UniqueNames
import Verif.Props.ViaValue

/-!
# `to_string` never writes the same member name twice
-/

namespace Miniserde

section
variable {E : Env} {ryu : F64 → Bytes} {lit : F64 → NumLit}

theorem jsonMembers_keys (lit : F64 → NumLit) : ∀ (xs : List (Bytes × FTree)), (FTree.jsonMembers lit xs).map Prod.fst = xs.map Prod.fst
  | [] => rfl
  | (k, x) :: xs => by simp only [FTree.jsonMembers, List.map_cons, jsonMembers_keys lit xs]

theorem encodesEntries_keys {f : Bytes → Bytes} {t : Ty} : ∀ {ms : List (Bytes × Val)} {xs : List (Bytes × FTree)}, EncodesEntries E f t ms xs →
    xs.map Prod.fst = (ms.map Prod.fst).map f
  | _, _, .nil _ _ => rfl
  | _, _, .cons _ hs => by simp only [List.map_cons, encodesEntries_keys hs]

theorem encodesFields_keys : ∀ {fs : List (Bytes × Ty)} {vs : List Val} {xs : List (Bytes × FTree)}, EncodesFields E fs vs xs →
    xs.map Prod.fst = fs.map Prod.fst
  | _, _, _, .nil => rfl
  | _, _, _, .cons _ hs => by simp only [List.map_cons, encodesFields_keys hs]

theorem nodup_map_inj {f : Bytes → Bytes} (hf : ∀ a b, f a = f b → a = b) {l : List Bytes} (h : l.Nodup) : (l.map f).Nodup := by
  rw [List.nodup_iff_pairwise_ne] at h ⊢
  rw [List.pairwise_map]
  exact h.imp fun {a b} hab e => hab (hf a b e)

theorem irrefl_nodup {lt : Bytes → Bytes → Bool} (hl : ∀ a, lt a a = false) {α : Type} {m : List (Bytes × α)} (h : SortedKeys lt m) :
    (m.map Prod.fst).Nodup := by
  rw [List.nodup_iff_pairwise_ne, List.pairwise_map]
  refine h.imp fun {a b} hab e => ?_
  rw [e, hl] at hab; cases hab

mutual

theorem encodes_unique_names (hE : E.DistinctNames) : ∀ {t : Ty} {v : Val} {x : FTree}, Encodes E t v x → HasTy E t v → (x.json lit).NoDup
  | _, _, _, .unit, _ | _, _, _, .vNull, _ | _, _, _, .none _, _ => by simp only [FTree.json]; exact .null
  | _, _, _, .bool _, _ | _, _, _, .vBool _, _ => by simp only [FTree.json]; exact .bool _
  | _, _, _, .string _, _ | _, _, _, .vStr _, _ | _, _, _, .enm _, _ => by simp only [FTree.json]; exact .str _
  | _, _, _, .unsigned _ _, _ | _, _, _, .signed _ _, _ | _, _, _, .numU _ _ _, _ | _, _, _, .numI _ _ _, _ => by simp only [FTree.json]; exact .num _
  | _, _, _, .f32 _, _ | _, _, _, .f64 _, _ | _, _, _, .numF _ _ _, _ => by
    simp only [FTree.json]
    split
    · exact .num _
    · exact .null
  | _, _, _, .box h, ht => by cases ht with | box ht => exact encodes_unique_names hE h ht
  | _, _, _, .some h, ht => by cases ht with | some ht => exact encodes_unique_names hE h ht
  | _, _, _, .tup hx hy, ht => by
    cases ht with
    | tup hx' hy' =>
      simp only [FTree.json, FTree.jsons]
      refine .arr fun j hj => ?_
      simp only [List.mem_cons, List.not_mem_nil, or_false] at hj
      rcases hj with rfl | rfl
      · exact encodes_unique_names hE hx hx'
      · exact encodes_unique_names hE hy hy'
    | array ht _ => rcases ht with e | e <;> cases e
  | t, _, _, .array hv hs, ht => by
    simp only [FTree.json]
    rcases hv with rfl | rfl <;> cases ht with | array _ h => exact .arr (encodesAll_unique_names hE hs h)
  | _, _, _, .vec hs, ht => by
    simp only [FTree.json]
    cases ht with
    | vec h => exact .arr (encodesAll_unique_names hE hs h)
    | array ht _ => rcases ht with e | e <;> cases e
  | _, _, _, .arr hs, ht => by
    simp only [FTree.json]
    cases ht with
    | arr _ h => exact .arr (encodesAll_unique_names hE hs h)
    | array ht _ => rcases ht with e | e <;> cases e
  | _, _, _, .object hv hs, ht => by
    simp only [FTree.json]
    rcases hv with rfl | rfl <;> cases ht with
      | object _ hk hsort h =>
        refine .obj ?_ (encodesEntries_unique_names hE hs h)
        rw [jsonMembers_keys, encodesEntries_keys hs, List.map_id']
        exact sorted_nodup strLt_linear hsort
  | _, _, _, .hmap (k := k) hp hs, ht => by
    simp only [FTree.json]
    cases ht with
    | hmap hk hu h =>
      refine .obj ?_ (encodesEntries_unique_names hE hs fun m hm => h m (hp.mem_iff.1 hm))
      rw [jsonMembers_keys, encodesEntries_keys hs]
      exact nodup_map_inj (hE.keys k) ((hp.map Prod.fst).nodup_iff.2 hk)
    | object ht _ => rcases ht with e | e <;> cases e
  | _, _, _, .bmap (k := k) hs, ht => by
    simp only [FTree.json]
    cases ht with
    | bmap hk hu h =>
      refine .obj ?_ (encodesEntries_unique_names hE hs h)
      rw [jsonMembers_keys, encodesEntries_keys hs]
      exact nodup_map_inj (hE.keys k) (irrefl_nodup (hE.order k) hk)
    | object ht _ => rcases ht with e | e <;> cases e
  | _, _, _, .strct (i := i) hs, ht => by
    simp only [FTree.json]
    cases ht with
    | strct hn h =>
      refine .obj ?_ (encodesFields_unique_names hE hs h)
      rw [jsonMembers_keys, encodesFields_keys hs]
      exact hE.fields i

theorem encodesAll_unique_names (hE : E.DistinctNames) : ∀ {t : Ty} {vs : List Val} {xs : List FTree}, EncodesAll E t vs xs → (∀ v ∈ vs, HasTy E t v) →
    ∀ j ∈ FTree.jsons lit xs, j.NoDup
  | _, _, _, .nil _, _ => by simp [FTree.jsons]
  | _, _, _, .cons h hs, ht => by
    intro j hj
    simp only [FTree.jsons, List.mem_cons] at hj
    rcases hj with rfl | hj
    · exact encodes_unique_names hE h (ht _ List.mem_cons_self)
    · exact encodesAll_unique_names hE hs (fun v hv => ht v (List.mem_cons_of_mem _ hv)) j hj

theorem encodesEntries_unique_names (hE : E.DistinctNames) : ∀ {f : Bytes → Bytes} {t : Ty} {ms : List (Bytes × Val)} {xs : List (Bytes × FTree)},
    EncodesEntries E f t ms xs → (∀ m ∈ ms, HasTy E t m.2) → ∀ m ∈ FTree.jsonMembers lit xs, m.2.NoDup
  | _, _, _, _, .nil _ _, _ => by simp [FTree.jsonMembers]
  | _, _, _, _, .cons h hs, ht => by
    intro j hj
    simp only [FTree.jsonMembers, List.mem_cons] at hj
    rcases hj with rfl | hj
    · exact encodes_unique_names hE h (ht _ List.mem_cons_self)
    · exact encodesEntries_unique_names hE hs (fun v hv => ht v (List.mem_cons_of_mem _ hv)) j hj

theorem encodesFields_unique_names (hE : E.DistinctNames) : ∀ {fs : List (Bytes × Ty)} {vs : List Val} {xs : List (Bytes × FTree)},
    EncodesFields E fs vs xs → (∀ (j : Nat) (f : Bytes × Ty) (v : Val), fs[j]? = some f → vs[j]? = some v → HasTy E f.2 v) →
    ∀ m ∈ FTree.jsonMembers lit xs, m.2.NoDup
  | _, _, _, .nil, _ => by simp [FTree.jsonMembers]
  | _, _, _, .cons h hs, ht => by
    intro j hj
    simp only [FTree.jsonMembers, List.mem_cons] at hj
    rcases hj with rfl | hj
    · exact encodes_unique_names hE h (ht 0 _ _ rfl rfl)
    · exact encodesFields_unique_names hE hs (fun j f v hf hv => ht (j + 1) f v hf hv) j hj

end

/-- **C65.** In the text `to_string` writes for a value of a library or derived type, no object has two members of the same name, at any depth. -/
theorem C65_unique_names (E : Env) (order : Nat → List (Bytes × Val) → List (Bytes × Val)) (ho : ∀ n ms, (order n ms).Perm ms) (hE : E.Utf8)
    (hn : E.DistinctNames) (hr : RyuSyntax ryu lit) (t : Ty) (v : Val) (h : HasTy E t v) (o : Bytes) (hp : PrintsAs E order ryu t v o) (j : Json)
    (hj : JText o j) : j.NoDup := by
  obtain ⟨x, hx, -, hj', -⟩ := prints_encodes E order ho hE hr h hp
  cases JText.unique hj hj'
  exact encodes_unique_names hn hx h

end

theorem exEnv_distinct : exEnv.DistinctNames where
  fields := exEnv_plain.fieldNames
  keys k a b h := by
    have h1 := exEnv_plain.keys k a
    rw [h, exEnv_plain.keys k b] at h1
    cases h1; rfl
  order k a := (exEnv_plain.order k).irrefl a

/-- `exPoint`, whose text has nested objects. -/
example (o : Bytes) (h : PrintsAs exEnv exOrder (fun x => (exLit x).text) (.strct 0) exPoint o) (j : Json) (hj : JText o j) : j.NoDup :=
  C65_unique_names exEnv exOrder (fun _ _ => .refl _) exEnv_utf8 exEnv_distinct exRyu (.strct 0) exPoint exPoint_ty o h j hj

/-- `Json.NoDup` is not vacuous. -/
example : ¬ (Json.arr [.obj [(str! "x", .null), (str! "x", .num litOne)]]).NoDup := by
  intro h
  cases h with
  | arr h =>
    cases h _ List.mem_cons_self with
    | obj hk _ => exact absurd hk (by decide)

/-- A struct with two fields of the same name after renaming (the derive macro accepts it). -/
def exClash : Env := { exEnv with fields := fun _ => [(str! "x", .unit), (str! "x", .bool)] }

/-- The hypothesis on field names is needed: the text of `exClash` has a repeated name. -/
example : ∃ x, Encodes exClash (.strct 0) (.strct [.null, .bool true]) x ∧ HasTy exClash (.strct 0) (.strct [.null, .bool true]) ∧
    compact (x.json exLit) = str! "{\"x\":null,\"x\":true}" ∧ ¬ (x.json exLit).NoDup := by
  refine ⟨.map [(str! "x", .null), (str! "x", .bool true)], .strct (.cons .unit (.cons (.bool true) .nil)), .strct rfl ?_, by decide +kernel, ?_⟩
  · intro j f v hf hv
    match j with
    | 0 => cases hf; cases hv; exact .unit
    | 1 => cases hf; cases hv; exact .bool true
    | _ + 2 => simp [exClash] at hf
  · simp only [FTree.json, FTree.jsonMembers]
    intro h
    cases h with
    | obj hk _ => exact absurd hk (by decide)

end Miniserde
