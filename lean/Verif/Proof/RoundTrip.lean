import Verif.Spec.RoundTrip
import Verif.Proof.Compact
import Verif.Props.Typed

/-!
# Reading back what was written
-/

namespace Miniserde
section
variable {E : Env} {lit : F64 → NumLit}

/-! ## Integers -/

theorem event_u64 {n : Nat} (h : n ≤ u64Max) : numEvent ⟨false, decimal n, none, none⟩ = .ok (.nonnegative n) := by
  rw [numEvent_int rfl rfl]
  simp only [decimal_val]
  rw [if_pos h]; rfl

theorem event_neg {z : Int} (h : i64Min ≤ z) (hz : z < 0) : numEvent ⟨decide (z < 0), decimal z.natAbs, none, none⟩ = .ok (.negative z) := by
  have h1 : z.natAbs ≤ 9223372036854775808 := by simp only [i64Min] at h; omega
  have h2 : z.natAbs ≤ u64Max := Nat.le_trans h1 (by decide)
  rw [numEvent_int rfl rfl]
  simp only [decimal_val]
  rw [if_pos h2, if_pos (by simpa using hz), if_pos h1]
  congr 2; omega

theorem event_nonneg {z : Int} (h : z ≤ i64Max) (hz : 0 ≤ z) :
    numEvent ⟨decide (z < 0), decimal z.natAbs, none, none⟩ = .ok (.nonnegative z.natAbs) := by
  have e : decide (z < 0) = false := by simpa using hz
  rw [e]
  exact event_u64 (by simp only [i64Max] at h; simp only [u64Max]; omega)

theorem two_pow_le {a b : Nat} (h : a ≤ b) : (2 : Int) ^ a ≤ 2 ^ b := by
  have := Nat.pow_le_pow_right (n := 2) (by decide) h
  exact_mod_cast this

theorem highest_le {signed : Bool} {bits : Nat} (hb : bits ≤ 64) : highest signed bits ≤ u64Max := by
  cases signed with
  | true =>
    have : (2 : Int) ^ (bits - 1) ≤ 2 ^ 64 := two_pow_le (by omega)
    simp only [highest, if_true]
    have e : (2 : Int) ^ 64 = 18446744073709551616 := by decide
    simp only [u64Max]; omega
  | false =>
    have : (2 : Int) ^ bits ≤ 2 ^ 64 := two_pow_le hb
    have e : (2 : Int) ^ 64 = 18446744073709551616 := by decide
    simp only [highest, Bool.false_eq_true, if_false, u64Max]; omega

theorem lowest_ge {bits : Nat} (hb : bits ≤ 64) : i64Min ≤ lowest true bits := by
  have : (2 : Int) ^ (bits - 1) ≤ 2 ^ 63 := two_pow_le (by omega)
  have e : (2 : Int) ^ 63 = 9223372036854775808 := by decide
  simp only [lowest, if_true, i64Min]; omega

theorem highest_signed_le {bits : Nat} (hb : bits ≤ 64) : highest true bits ≤ i64Max := by
  have : (2 : Int) ^ (bits - 1) ≤ 2 ^ 63 := two_pow_le (by omega)
  have e : (2 : Int) ^ 63 = 9223372036854775808 := by decide
  simp only [highest, if_true, i64Max]; omega

theorem decode_num' (l : NumLit) {ev : Event} (h : numEvent l = .ok ev) {t : Ty} {v : Val} (hv : decodeNum ev t = some v) :
    decode E (.num l) t = some v := by
  have hs : decodeScalar E (.num l) t = some v := by simp only [decodeScalar, h, hv]
  unfold decode
  cases t <;> first | exact hs | (cases ev <;> cases hv)

/-! ## Maps without repeated keys -/

theorem hashInsert_new {α : Type} (k : Bytes) (v : α) : ∀ (m : List (Bytes × α)), k ∉ m.map Prod.fst → hashInsert k v m = m ++ [(k, v)]
  | [], _ => rfl
  | (a, u) :: m, h => by
    simp only [List.map_cons, List.mem_cons, not_or] at h
    rw [hashInsert, if_neg (Ne.symm h.1), hashInsert_new k v m h.2]; rfl

theorem foldl_hash_nodup {α : Type} : ∀ (kvs m : List (Bytes × α)), ((m ++ kvs).map Prod.fst).Nodup →
    kvs.foldl (fun m kv => hashInsert kv.1 kv.2 m) m = m ++ kvs
  | [], m, _ => by simp
  | (k, v) :: kvs, m, h => by
    have hk : k ∉ m.map Prod.fst := by
      simp only [List.map_append, List.map_cons, List.nodup_append, List.nodup_cons] at h
      intro hm; exact h.2.2 k hm k (by simp) rfl
    rw [List.foldl_cons, hashInsert_new k v m hk, foldl_hash_nodup kvs (m ++ [(k, v)]) (by simpa using h)]
    simp

theorem sorted_nodup {lt : Bytes → Bytes → Bool} (hl : StrictLinear lt) {α : Type} {m : List (Bytes × α)} (h : SortedKeys lt m) :
    (m.map Prod.fst).Nodup := by
  rw [List.nodup_iff_pairwise_ne, List.pairwise_map]
  refine h.imp fun {a b} hab e => ?_
  rw [e, hl.irrefl] at hab; cases hab

theorem foldl_btree_sorted {lt : Bytes → Bytes → Bool} (hl : StrictLinear lt) {α : Type} {kvs : List (Bytes × α)} (h : SortedKeys lt kvs) :
    kvs.foldl (fun m kv => btreeInsert lt kv.1 kv.2 m) [] = kvs := by
  obtain ⟨h1, h2⟩ := foldl_btree hl kvs [] List.Pairwise.nil
  refine SortedKeys.ext hl h1 h fun k => ?_
  rw [h2]
  have := lastOcc_perm (List.reverse_perm kvs).symm (sorted_nodup hl h) k
  simp only [lastOcc, List.reverse_reverse] at this
  simp [this]

theorem lastOcc_of_mem {α : Type} {k : Bytes} {v : α} : ∀ {l : List (Bytes × α)}, (l.map Prod.fst).Nodup → (k, v) ∈ l → lastOcc k l = some v
  | [], _, h => by cases h
  | (a, u) :: l, hn, h => by
    simp only [List.map_cons, List.nodup_cons] at hn
    rw [lastOcc_cons]
    rcases List.mem_cons.1 h with h | h
    · cases h
      have : lastOcc k l = none := by
        rw [lastOcc, List.lookup_eq_none_iff]
        intro p hp
        simp only [bne_iff_ne, ne_eq]
        rintro rfl
        exact hn.1 (List.mem_map.2 ⟨p, by simpa using hp, rfl⟩)
      rw [this]; simp
    · rw [lastOcc_of_mem hn.2 h]; rfl

theorem SameEntries.keys {t : Ty} : ∀ {ms ms' : List (Bytes × Val)}, SameEntries E t ms ms' → ms'.map Prod.fst = ms.map Prod.fst
  | _, _, .nil _ _ => rfl
  | _, _, .cons _ hs => by simp only [List.map_cons, SameEntries.keys hs]

/-! ## Null -/

theorem isNull_json : ∀ {t : Ty} {v : Val} {x : FTree}, Encodes E t v x → Plain E t v → (x.json lit).isNull = v.asNull
  | _, _, _, .unit, _ | _, _, _, .bool _, _ | _, _, _, .string _, _ | _, _, _, .unsigned _ _, _ | _, _, _, .signed _ _, _ | _, _, _, .numU _ _ _, _ | _, _, _, .numI _ _ _, _
  | _, _, _, .vNull, _ | _, _, _, .vBool _, _ | _, _, _, .vStr _, _ | _, _, _, .array _ _, _ | _, _, _, .object _ _, _ | _, _, _, .none _, _ | _, _, _, .tup _ _, _ | _, _, _, .vec _, _ | _, _, _, .arr _, _
  | _, _, _, .hmap _ _, _ | _, _, _, .bmap _, _ | _, _, _, .strct _, _ | _, _, _, .enm _, _ => by simp [FTree.json, Json.isNull, Val.asNull]
  | _, _, _, .f32 x, h => by cases h
  | _, _, _, .f64 x, h => by cases h
  | _, _, _, .numF _ _ ht, h => by rcases ht with rfl | rfl <;> cases h
  | _, _, _, .box h, hp => by
    cases hp with
    | box hp => rw [Val.asNull]; exact isNull_json h hp
    | _ => simp_all
  | _, _, _, .some h, hp => by
    cases hp with
    | some hp _ => rw [Val.asNull]; exact isNull_json h hp
    | _ => simp_all

/-! ## Structs -/

theorem lookup_of_field {fields : List (Bytes × Ty)} (hn : (fields.map Prod.fst).Nodup) {j : Nat} {n : Bytes} {t : Ty}
    (h : fields[j]? = some (n, t)) : fields.lookup n = some t := by
  obtain ⟨t', h1, h2⟩ := lookup_of_idx ((fieldIdx_some hn h).2 rfl)
  rw [h] at h1; cases h1; exact h2

theorem strct_back {i : Nat} (hn : ((E.fields i).map Prod.fst).Nodup) {ms : List (Bytes × Json)} {vs : List Val}
    (hk : ms.map Prod.fst = (E.fields i).map Prod.fst) (hl : vs.length = (E.fields i).length)
    (h : ∀ (j : Nat) n t, (E.fields i)[j]? = some (n, t) → ∃ x u, ms[j]? = some (n, x) ∧ vs[j]? = some u ∧ decode E x t = some u) :
    decode E (.obj ms) (.strct i) = some (.strct vs) := by
  rw [decode_strct E hn]
  refine ⟨vs, rfl, ?_, hl, ?_⟩
  · intro m hm
    obtain ⟨j, hj⟩ := List.mem_iff_getElem?.1 hm
    have hlen : ms.length = (E.fields i).length := by simpa using congrArg List.length hk
    have hj' : j < (E.fields i).length := hlen ▸ (List.getElem?_eq_some_iff.1 hj).1
    obtain ⟨n, t, e⟩ : ∃ n t, (E.fields i)[j]? = some (n, t) := ⟨_, _, List.getElem?_eq_getElem hj'⟩
    obtain ⟨x, u, h1, h2, h3⟩ := h j n t e
    rw [hj] at h1; cases h1
    unfold MemberFits
    simp only [lookup_of_field hn e]
    exact ⟨u, h3⟩
  · intro j n t hj
    obtain ⟨x, u, h1, h2, h3⟩ := h j n t hj
    refine ⟨u, h2, ?_⟩
    unfold FieldHas
    rw [lastOcc_of_mem (hk ▸ hn) (List.mem_of_getElem? h1)]
    exact h3

/-! ## The round trip -/

theorem decode_int_back {signed : Bool} {bits : Nat} {z : Int} {x : FTree} (hx : Encodes E (.int signed bits) (.int z) x) (hb : bits ≤ 64)
    (hz : lowest signed bits ≤ z ∧ z ≤ highest signed bits) : decode E (x.json lit) (.int signed bits) = some (.int z) := by
  cases hx with
  | unsigned _ n =>
    refine decode_num' _ (event_u64 ?_) ?_
    · have := Int.le_trans hz.2 (highest_le hb); omega
    · have h2 := hz.2
      simp only [highest, Bool.false_eq_true, if_false] at h2
      simp only [decodeNum, h2, if_true]
  | signed =>
    rcases Int.lt_or_le z 0 with h0 | h0
    · refine decode_num' _ (event_neg (Int.le_trans (lowest_ge hb) hz.1) h0) ?_
      have := hz.1
      simp only [lowest, if_true] at this
      simp only [decodeNum, this, and_self, if_true]
    · refine decode_num' _ (event_nonneg (Int.le_trans hz.2 (highest_signed_le hb)) h0) ?_
      have := hz.2
      simp only [highest, if_true] at this
      have e : ((z.natAbs : Nat) : Int) = z := by omega
      simp only [decodeNum, e, this, if_true]

theorem decode_seq_back {t : Ty} {xs : List Json} {vs : List Val} (h : decodeAll E xs t = some vs) :
    decode E (.arr xs) (.vec t) = some (.seq vs) := by
  unfold decode; simp only [h, Option.map_some]

theorem decode_array_back {t : Ty} (ht : t = .array ∨ t = .value) {xs : List Json} {vs : List Val} (h : decodeAll E xs .value = some vs) :
    decode E (.arr xs) t = some (.seq vs) := by
  rcases ht with rfl | rfl <;> · unfold decode; simp only [h, Option.map_some]

theorem decode_object_back {t : Ty} (ht : t = .object ∨ t = .value) {ms : List (Bytes × Json)} {kvs : List (Bytes × Val)}
    (h : decodeEntries E some .value ms = some kvs) (hs : SortedKeys strLt kvs) : decode E (.obj ms) t = some (.map kvs) := by
  rcases ht with rfl | rfl <;> · unfold decode; simp only [h, Option.map_some, foldl_btree_sorted strLt_linear hs]

theorem enc_length {t : Ty} : ∀ {vs : List Val} {xs : List FTree}, EncodesAll E t vs xs → (FTree.jsons lit xs).length = vs.length
  | _, _, .nil _ => rfl
  | _, _, .cons _ hs => by rw [FTree.jsons, List.length_cons, List.length_cons, enc_length hs]

/-- Members decode one by one. -/
def FieldsBack (E : Env) (lit : F64 → NumLit) (fs : List (Bytes × Ty)) (xs : List (Bytes × FTree)) (vs : List Val) : Prop :=
  (FTree.jsonMembers lit xs).map Prod.fst = fs.map Prod.fst ∧ vs.length = fs.length ∧
  ∀ (j : Nat) n t, fs[j]? = some (n, t) → ∃ x u, (FTree.jsonMembers lit xs)[j]? = some (n, x) ∧ vs[j]? = some u ∧ decode E x t = some u

mutual

/-- For `Value`, reading back gives the identical tree. -/
theorem back_value : ∀ {v : Val} {x : FTree}, Encodes E .value v x → HasTy E .value v → Plain E .value v →
    decode E (x.json lit) .value = some v
  | _, _, .numU _ n _, ht, _ => by
    cases ht with
    | numU _ h => exact decode_num' _ (event_u64 h) rfl
  | _, _, .numI _ z _, ht, hp => by
    cases ht with
    | numI _ h =>
      cases hp with
      | numI _ hz => exact decode_num' _ (event_neg h.1 hz) rfl
  | _, _, .numF _ _ _, _, hp => by cases hp
  | _, _, .vNull, _, _ => by rw [FTree.json]; unfold decode; rfl
  | _, _, .vBool _, _, _ => by rw [FTree.json]; unfold decode; rfl
  | _, _, .vStr _, _, _ => by rw [FTree.json]; unfold decode; rfl
  | _, _, .array ht hs, h, hp => by
    cases h with
    | array _ h =>
      cases hp with
      | array _ hp => rw [FTree.json]; exact decode_array_back ht (back_values hs h hp)
  | _, _, .object ht hs, h, hp => by
    cases h with
    | object _ _ hso h =>
      cases hp with
      | object _ hp => rw [FTree.json]; exact decode_object_back ht (back_entries hs h hp) hso

theorem back_values : ∀ {vs : List Val} {xs : List FTree}, EncodesAll E .value vs xs → (∀ v ∈ vs, HasTy E .value v) →
    (∀ v ∈ vs, Plain E .value v) → decodeAll E (FTree.jsons lit xs) .value = some vs
  | _, _, .nil _, _, _ => by rw [FTree.jsons, decodeAll]
  | _, _, .cons h hs, ht, hp => by
    rw [FTree.jsons, decodeAll, back_value h (ht _ List.mem_cons_self) (hp _ List.mem_cons_self), Option.bind_some,
      back_values hs (fun v hv => ht v (List.mem_cons_of_mem _ hv)) fun v hv => hp v (List.mem_cons_of_mem _ hv)]
    rfl

theorem back_entries : ∀ {ms : List (Bytes × Val)} {xs : List (Bytes × FTree)}, EncodesEntries E (fun k => k) .value ms xs →
    (∀ m ∈ ms, HasTy E .value m.2) → (∀ m ∈ ms, Plain E .value m.2) → decodeEntries E some .value (FTree.jsonMembers lit xs) = some ms
  | _, _, .nil _ _, _, _ => by rw [FTree.jsonMembers, decodeEntries]
  | _, _, .cons h hs, ht, hp => by
    rw [FTree.jsonMembers, decodeEntries, Option.bind_some, back_value h (ht _ List.mem_cons_self) (hp _ List.mem_cons_self), Option.bind_some,
      back_entries hs (fun v hv => ht v (List.mem_cons_of_mem _ hv)) fun v hv => hp v (List.mem_cons_of_mem _ hv)]
    rfl

end

mutual

/-- What is written is read back. -/
theorem back : ∀ {t : Ty} {v : Val} {x : FTree}, Encodes E t v x → HasTy E t v → Plain E t v →
    ∃ v', decode E (x.json lit) t = some v' ∧ Same E t v v'
  | _, _, _, .unit, _, _ => ⟨_, by rw [FTree.json]; unfold decode; rfl, .refl _ _ _⟩
  | _, _, _, .bool _, _, _ => ⟨_, by rw [FTree.json]; unfold decode; rfl, .refl _ _ _⟩
  | _, _, _, .string _, _, _ => ⟨_, by rw [FTree.json]; unfold decode; rfl, .refl _ _ _⟩
  | _, _, _, .unsigned bits n, ht, _ => by
    cases ht with
    | int hb hz => exact ⟨_, decode_int_back (.unsigned bits n) hb hz, .refl _ _ _⟩
  | _, _, _, .signed bits z, ht, _ => by
    cases ht with
    | int hb hz => exact ⟨_, decode_int_back (.signed bits z) hb hz, .refl _ _ _⟩
  | _, _, _, .f32 _, _, hp => by cases hp
  | _, _, _, .f64 _, _, hp => by cases hp
  | _, _, _, .numU _ n h, ht, hp => by
    rcases h with rfl | rfl <;> cases ht with
    | numU _ hn => exact ⟨_, decode_num' _ (event_u64 hn) rfl, .refl _ _ _⟩
  | _, _, _, .numI _ z h, ht, hp => by
    rcases h with rfl | rfl <;> cases ht with
    | numI _ hn => cases hp with
      | numI _ hz => exact ⟨_, decode_num' _ (event_neg hn.1 hz) rfl, .refl _ _ _⟩
  | _, _, _, .numF _ z h, ht, hp => by rcases h with rfl | rfl <;> cases hp
  | _, _, _, .vNull, ht, hp => ⟨_, back_value .vNull ht hp, .refl _ _ _⟩
  | _, _, _, .vBool b, ht, hp => ⟨_, back_value (.vBool b) ht hp, .refl _ _ _⟩
  | _, _, _, .vStr s, ht, hp => ⟨_, back_value (.vStr s) ht hp, .refl _ _ _⟩
  | _, _, _, .array (vs := vs) h hs, ht, hp => by
    have ht' : ∀ v ∈ vs, HasTy E .value v := by
      rcases h with rfl | rfl <;> cases ht with | array _ h => exact h
    have hp' : ∀ v ∈ vs, Plain E .value v := by
      rcases h with rfl | rfl <;> cases hp with | array _ h => exact h
    rw [FTree.json]
    exact ⟨_, decode_array_back h (back_values hs ht' hp'), .refl _ _ _⟩
  | _, _, _, .object (ms := ms) h hs, ht, hp => by
    have ht' : (∀ m ∈ ms, HasTy E .value m.2) ∧ SortedKeys strLt ms := by
      rcases h with rfl | rfl <;> cases ht with | object _ _ hso h => exact ⟨h, hso⟩
    have hp' : ∀ m ∈ ms, Plain E .value m.2 := by
      rcases h with rfl | rfl <;> cases hp with | object _ h => exact h
    rw [FTree.json]
    exact ⟨_, decode_object_back h (back_entries hs ht'.1 hp') ht'.2, .refl _ _ _⟩
  | _, _, _, .box h, ht, hp => by
    cases ht with
    | box ht =>
      cases hp with
      | box hp =>
        obtain ⟨v', h1, h2⟩ := back h ht hp
        exact ⟨_, by unfold decode; simp only [h1, Option.map_some], .box h2⟩
      | _ => simp_all
    | _ => simp_all
  | _, _, _, .none t, _, _ => ⟨_, by rw [FTree.json]; unfold decode; rfl, .refl _ _ _⟩
  | _, _, _, .some h, ht, hp => by
    cases ht with
    | some ht =>
      cases hp with
      | some hp hn =>
        obtain ⟨v', h1, h2⟩ := back h ht hp
        refine ⟨_, ?_, .some h2⟩
        unfold decode
        simp only [isNull_json h hp, hn, h1, Option.map_some]; rfl
      | _ => simp_all
    | _ => simp_all
  | _, _, _, .tup hx hy, ht, hp => by
    cases ht with
    | tup tx ty =>
      cases hp with
      | tup px py =>
        obtain ⟨x', h1, h2⟩ := back hx tx px
        obtain ⟨y', h3, h4⟩ := back hy ty py
        refine ⟨_, ?_, .tup h2 h4⟩
        rw [FTree.json]
        unfold decode
        simp only [FTree.jsons, h1, h3, Option.bind_some, Option.map_some]
      | _ => simp_all
    | _ => simp_all
  | _, _, _, .vec hs, ht, hp => by
    cases ht with
    | vec ht =>
      cases hp with
      | vec hp =>
        obtain ⟨vs', h1, h2⟩ := back_all hs ht hp
        refine ⟨_, ?_, .vec h2⟩
        rw [FTree.json]
        unfold decode
        simp only [h1, Option.map_some]
      | _ => simp_all
    | _ => simp_all
  | _, _, _, .arr hs, ht, hp => by
    cases ht with
    | arr hn ht =>
      cases hp with
      | arr hp =>
        obtain ⟨vs', h1, h2⟩ := back_all hs ht hp
        refine ⟨_, ?_, .arr h2⟩
        rw [FTree.json]
        unfold decode
        have hl := enc_length (lit := lit) hs
        simp only [h1, Option.map_some, hl, hn, if_true]
      | _ => simp_all
    | _ => simp_all
  | _, _, _, .hmap (ms := ms) (ms' := ms₁) hperm hs, ht, hp => by
    cases ht with
    | hmap hnd _ ht =>
      cases hp with
      | hmap hk hp =>
        obtain ⟨ms', h1, h2⟩ := back_kv hs (fun m hm => hk m (hperm.mem_iff.1 hm)) (fun m hm => ht m (hperm.mem_iff.1 hm))
          fun m hm => hp m (hperm.mem_iff.1 hm)
        refine ⟨_, ?_, .hmap hperm.symm h2⟩
        rw [FTree.json]
        unfold decode
        have : (ms'.map Prod.fst).Nodup := by rw [h2.keys]; exact (hperm.map Prod.fst).nodup_iff.2 hnd
        simp only [h1, Option.map_some, foldl_hash_nodup ms' [] (by simpa using this), List.nil_append]
      | _ => simp_all
    | _ => simp_all
  | _, _, _, .bmap (k := k) hs, ht, hp => by
    cases ht with
    | bmap hso _ ht =>
      cases hp with
      | bmap hl hk hp =>
        obtain ⟨ms', h1, h2⟩ := back_kv hs hk ht hp
        refine ⟨_, ?_, .bmap h2⟩
        rw [FTree.json]
        unfold decode
        have hso' : SortedKeys (E.keyLt k) ms' := by
          unfold SortedKeys at hso ⊢
          have e := h2.keys
          have := List.pairwise_map (f := Prod.fst) (R := fun a b => E.keyLt k a b = true) (l := ms')
          rw [← this, e, List.pairwise_map]; exact hso
        simp only [h1, Option.map_some, foldl_btree_sorted hl hso']
      | _ => simp_all
    | _ => simp_all
  | _, _, _, .strct hs, ht, hp => by
    cases ht with
    | strct hn ht =>
      cases hp with
      | strct hd hp =>
        obtain ⟨vs', ⟨h1, h2, h3⟩, h4⟩ := back_fields hs ht hp
        rw [FTree.json]
        exact ⟨_, strct_back hd h1 h2 h3, .strct h4⟩
      | _ => simp_all
    | _ => simp_all
  | _, _, _, .enm (i := i) (j := j) (name := name) hj, ht, hp => by
    cases hp with
    | enm hd =>
      refine ⟨.enm j, ?_, .refl _ _ _⟩
      rw [FTree.json]
      unfold decode
      simp only [decodeScalar]
      have : (E.variants i).findIdx? (· == name) = some j := by
        obtain ⟨hlt, hget⟩ := List.getElem?_eq_some_iff.1 hj
        rw [List.findIdx?_eq_some_iff_getElem]
        refine ⟨hlt, by simp [hget], fun k hk => ?_⟩
        have := (List.nodup_iff_pairwise_ne.1 hd)
        rw [List.pairwise_iff_getElem] at this
        have := this k j (by omega) hlt hk
        rw [hget] at this
        simpa using this
      rw [this]; rfl
    | _ => simp_all

theorem back_all : ∀ {t : Ty} {vs : List Val} {xs : List FTree}, EncodesAll E t vs xs → (∀ v ∈ vs, HasTy E t v) → (∀ v ∈ vs, Plain E t v) →
    ∃ vs', decodeAll E (FTree.jsons lit xs) t = some vs' ∧ SameAll E t vs vs'
  | _, _, _, .nil _, _, _ => ⟨[], by rw [FTree.jsons, decodeAll], .nil _ _⟩
  | _, _, _, .cons h hs, ht, hp => by
    obtain ⟨v', h1, h2⟩ := back h (ht _ List.mem_cons_self) (hp _ List.mem_cons_self)
    obtain ⟨vs', h3, h4⟩ := back_all hs (fun v hv => ht v (List.mem_cons_of_mem _ hv)) fun v hv => hp v (List.mem_cons_of_mem _ hv)
    exact ⟨v' :: vs', by rw [FTree.jsons, decodeAll, h1, Option.bind_some, h3]; rfl, .cons h2 h4⟩

theorem back_kv : ∀ {f : Bytes → Bytes} {t : Ty} {ms : List (Bytes × Val)} {xs : List (Bytes × FTree)}, EncodesEntries E f t ms xs →
    ∀ {parse : Bytes → Option Bytes}, (∀ m ∈ ms, parse (f m.1) = Option.some m.1) → (∀ m ∈ ms, HasTy E t m.2) → (∀ m ∈ ms, Plain E t m.2) →
    ∃ ms', decodeEntries E parse t (FTree.jsonMembers lit xs) = some ms' ∧ SameEntries E t ms ms'
  | _, _, _, _, .nil _ _, _, _, _, _ => ⟨[], by rw [FTree.jsonMembers, decodeEntries], .nil _ _⟩
  | _, _, _, _, .cons h hs, _, hk, ht, hp => by
    obtain ⟨v', h1, h2⟩ := back h (ht _ List.mem_cons_self) (hp _ List.mem_cons_self)
    obtain ⟨vs', h3, h4⟩ := back_kv hs (fun v hv => hk v (List.mem_cons_of_mem _ hv)) (fun v hv => ht v (List.mem_cons_of_mem _ hv))
      fun v hv => hp v (List.mem_cons_of_mem _ hv)
    have hk0 := hk _ List.mem_cons_self
    exact ⟨(_, v') :: vs', by rw [FTree.jsonMembers, decodeEntries, hk0, Option.bind_some, h1, Option.bind_some, h3]; rfl, .cons h2 h4⟩

theorem back_fields : ∀ {fs : List (Bytes × Ty)} {vs : List Val} {xs : List (Bytes × FTree)}, EncodesFields E fs vs xs →
    (∀ (j : Nat) (f : Bytes × Ty) (v : Val), fs[j]? = some f → vs[j]? = some v → HasTy E f.2 v) →
    (∀ (j : Nat) (f : Bytes × Ty) (v : Val), fs[j]? = some f → vs[j]? = some v → Plain E f.2 v) →
    ∃ vs', FieldsBack E lit fs xs vs' ∧ SameFields E fs vs vs'
  | _, _, _, .nil, _, _ => ⟨[], ⟨rfl, rfl, by simp⟩, .nil _⟩
  | _, _, _, .cons h hs, ht, hp => by
    obtain ⟨v', h1, h2⟩ := back h (ht 0 _ _ rfl rfl) (hp 0 _ _ rfl rfl)
    obtain ⟨vs', ⟨h3, h5, h6⟩, h4⟩ := back_fields hs (fun j f v hf hv => ht (j + 1) f v hf hv) fun j f v hf hv => hp (j + 1) f v hf hv
    refine ⟨v' :: vs', ⟨by simp [FTree.jsonMembers, h3], by simp [h5], ?_⟩, .cons h2 h4⟩
    intro j n t hj
    cases j with
    | zero =>
      simp only [List.getElem?_cons_zero, Option.some.injEq, Prod.mk.injEq] at hj
      obtain ⟨rfl, rfl⟩ := hj
      exact ⟨_, v', rfl, rfl, h1⟩
    | succ j => exact h6 j n t hj

end

/-! ## Hash-free values -/

mutual

theorem Same.eq (hE : ∀ i, ∀ f ∈ E.fields i, f.2.noHash = true) : ∀ {t : Ty} {v v' : Val}, Same E t v v' → t.noHash = true → v' = v
  | _, _, _, .refl _ _ _, _ => rfl
  | _, _, _, .box h, ht => by rw [Same.eq hE h ht]
  | _, _, _, .some h, ht => by rw [Same.eq hE h ht]
  | _, _, _, .tup hx hy, ht => by
    simp only [Ty.noHash, Bool.and_eq_true] at ht
    rw [Same.eq hE hx ht.1, Same.eq hE hy ht.2]
  | _, _, _, .vec h, ht => by rw [SameAll.eq hE h ht]
  | _, _, _, .arr h, ht => by rw [SameAll.eq hE h ht]
  | _, _, _, .hmap _ _, ht => by cases ht
  | _, _, _, .bmap h, ht => by rw [SameEntries.eq hE h ht]
  | _, _, _, .strct h, _ => by rw [SameFields.eq hE h (hE _)]

theorem SameAll.eq (hE : ∀ i, ∀ f ∈ E.fields i, f.2.noHash = true) : ∀ {t : Ty} {v v' : List Val}, SameAll E t v v' → t.noHash = true → v' = v
  | _, _, _, .nil _ _, _ => rfl
  | _, _, _, .cons h hs, ht => by rw [Same.eq hE h ht, SameAll.eq hE hs ht]

theorem SameEntries.eq (hE : ∀ i, ∀ f ∈ E.fields i, f.2.noHash = true) : ∀ {t : Ty} {v v' : List (Bytes × Val)}, SameEntries E t v v' →
    t.noHash = true → v' = v
  | _, _, _, .nil _ _, _ => rfl
  | _, _, _, .cons h hs, ht => by rw [Same.eq hE h ht, SameEntries.eq hE hs ht]

theorem SameFields.eq (hE : ∀ i, ∀ f ∈ E.fields i, f.2.noHash = true) : ∀ {fs : List (Bytes × Ty)} {v v' : List Val}, SameFields E fs v v' →
    (∀ f ∈ fs, f.2.noHash = true) → v' = v
  | _, _, _, .nil _, _ => rfl
  | _, _, _, .cons h hs, ht => by
    rw [Same.eq hE h (ht _ List.mem_cons_self), SameFields.eq hE hs fun f hf => ht f (List.mem_cons_of_mem _ hf)]

end

/-! ## Plain types -/

theorem asNull_nullable {t : Ty} {v : Val} (h : HasTy E t v) : t.nullable = false → v.asNull = false := by
  induction h with
  | numU ht _ | numI ht _ | numF ht _ => rcases ht with rfl | rfl <;> simp [Ty.nullable]
  | array ht _ _ | object ht _ _ _ _ => rcases ht with rfl | rfl <;> simp [Val.asNull]
  | box _ ih => exact ih
  | _ => simp [Ty.nullable, Val.asNull]

theorem plain_of_type (hE : E.Plain) {t : Ty} {v : Val} (h : HasTy E t v) : t.plain = true → Plain E t v := by
  induction h with
  | unit => intro; exact .unit
  | bool b => intro; exact .bool b
  | string => intro; exact .string _
  | int => intro; exact .int _ _ _
  | f32 | f64 | vNull | vBool | vStr => intro h; cases h
  | numU ht _ | numI ht _ | numF ht _ => rcases ht with rfl | rfl <;> (intro h; cases h)
  | array ht _ _ | object ht _ _ _ _ => rcases ht with rfl | rfl <;> (intro h; cases h)
  | box _ ih => intro h; exact .box (ih h)
  | none t => intro; exact .none t
  | some hv ih =>
    intro h
    simp only [Ty.plain, Bool.and_eq_true, Bool.not_eq_true'] at h
    exact .some (ih h.1) (asNull_nullable hv h.2)
  | tup _ _ ihx ihy =>
    intro h
    simp only [Ty.plain, Bool.and_eq_true] at h
    exact .tup (ihx h.1) (ihy h.2)
  | vec _ ih => intro h; exact .vec fun v hv => ih v hv h
  | arr _ _ ih => intro h; exact .arr fun v hv => ih v hv h
  | hmap _ _ _ ih => intro h; exact .hmap (fun m _ => hE.keys _ _) fun v hv => ih v hv h
  | bmap _ _ _ ih => intro h; exact .bmap (hE.order _) (fun m _ => hE.keys _ _) fun v hv => ih v hv h
  | strct _ _ ih =>
    intro h
    exact .strct (hE.fieldNames _) fun j f v hf hv => ih j f v hf hv (hE.fieldTypes _ f (List.mem_of_getElem? hf))
  | enm => intro; exact .enm (hE.variants _)

end
end Miniserde
