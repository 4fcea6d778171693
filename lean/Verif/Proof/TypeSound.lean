import Verif.Proof.FloatFinite
import Verif.Spec.Sound

/-!
# Type soundness of decoding
-/

namespace Miniserde

theorem hashInsert_mem {α : Type} {k : Bytes} {v : α} {x : Bytes × α} : ∀ {m : List (Bytes × α)}, x ∈ hashInsert k v m → x = (k, v) ∨ x ∈ m
  | [], h => by simp [hashInsert] at h; exact .inl h
  | (a, u) :: m, h => by
    rw [hashInsert] at h
    split at h
    · rename_i e
      rcases List.mem_cons.1 h with rfl | h
      · exact .inl (by rw [e])
      · exact .inr (List.mem_cons_of_mem _ h)
    · rcases List.mem_cons.1 h with rfl | h
      · exact .inr List.mem_cons_self
      · rcases hashInsert_mem h with h | h
        · exact .inl h
        · exact .inr (List.mem_cons_of_mem _ h)

theorem foldl_hash_mem {α : Type} (kvs : List (Bytes × α)) : ∀ (m : List (Bytes × α)) (x : Bytes × α),
    x ∈ kvs.foldl (fun m kv => hashInsert kv.1 kv.2 m) m → x ∈ kvs ∨ x ∈ m := by
  induction kvs with
  | nil => intro m x h; exact .inr h
  | cons kv kvs ih =>
    intro m x h
    rw [List.foldl_cons] at h
    rcases ih _ x h with h | h
    · exact .inl (List.mem_cons_of_mem _ h)
    · rcases hashInsert_mem h with rfl | h
      · exact .inl List.mem_cons_self
      · exact .inr h

/-- An entry of the map after insertion has an old or the inserted key and value. -/
theorem btreeInsert_mem' {α : Type} {lt : Bytes → Bytes → Bool} {k : Bytes} {v : α} {x : Bytes × α} : ∀ {m : List (Bytes × α)},
    x ∈ btreeInsert lt k v m → (x.1 = k ∨ ∃ y ∈ m, y.1 = x.1) ∧ (x.2 = v ∨ ∃ y ∈ m, y.2 = x.2)
  | [], h => by simp [btreeInsert] at h; simp [h]
  | (a, u) :: m, h => by
    rw [btreeInsert] at h
    split at h
    · rcases List.mem_cons.1 h with rfl | h
      · simp
      · exact ⟨.inr ⟨x, h, rfl⟩, .inr ⟨x, h, rfl⟩⟩
    · split at h
      · rcases List.mem_cons.1 h with rfl | h
        · exact ⟨.inr ⟨_, List.mem_cons_self, rfl⟩, .inr ⟨_, List.mem_cons_self, rfl⟩⟩
        · obtain ⟨h1, h2⟩ := btreeInsert_mem' h
          refine ⟨?_, ?_⟩
          · rcases h1 with h1 | ⟨y, hy, e⟩
            · exact .inl h1
            · exact .inr ⟨y, List.mem_cons_of_mem _ hy, e⟩
          · rcases h2 with h1 | ⟨y, hy, e⟩
            · exact .inl h1
            · exact .inr ⟨y, List.mem_cons_of_mem _ hy, e⟩
      · rcases List.mem_cons.1 h with rfl | h
        · exact ⟨.inr ⟨_, List.mem_cons_self, rfl⟩, .inl rfl⟩
        · exact ⟨.inr ⟨x, List.mem_cons_of_mem _ h, rfl⟩, .inr ⟨x, List.mem_cons_of_mem _ h, rfl⟩⟩

theorem foldl_btree_mem {α : Type} {lt : Bytes → Bytes → Bool} (kvs : List (Bytes × α)) : ∀ (m : List (Bytes × α)) (x : Bytes × α),
    x ∈ kvs.foldl (fun m kv => btreeInsert lt kv.1 kv.2 m) m →
      (∃ y ∈ kvs ++ m, y.1 = x.1) ∧ (∃ y ∈ kvs ++ m, y.2 = x.2) := by
  induction kvs with
  | nil => intro m x h; exact ⟨⟨x, h, rfl⟩, ⟨x, h, rfl⟩⟩
  | cons kv kvs ih =>
    intro m x h
    rw [List.foldl_cons] at h
    obtain ⟨⟨y, hy, e⟩, ⟨z, hz, e'⟩⟩ := ih _ x h
    simp only [List.cons_append, List.mem_cons, List.mem_append] at *
    constructor
    · rcases hy with hy | hy
      · exact ⟨y, .inr (.inl hy), e⟩
      · rcases (btreeInsert_mem' hy).1 with h | ⟨w, hw, ew⟩
        · exact ⟨kv, .inl rfl, by rw [← h, e]⟩
        · exact ⟨w, .inr (.inr hw), by rw [ew, e]⟩
    · rcases hz with hz | hz
      · exact ⟨z, .inr (.inl hz), e'⟩
      · rcases (btreeInsert_mem' hz).2 with h | ⟨w, hw, ew⟩
        · exact ⟨kv, .inl rfl, by rw [← h, e']⟩
        · exact ⟨w, .inr (.inr hw), by rw [ew, e']⟩

/-- Scalars with the delivered number spelled out. -/
theorem decodeScalar_num {E : Env} {l : NumLit} {t : Ty} {v : Val} (h : decodeScalar E (.num l) t = some v) :
    ∃ ev, numEvent l = .ok ev ∧ decodeNum ev t = some v := by
  have h' : (match numEvent l with | .ok ev => decodeNum ev t | _ => none) = some v := by
    cases t <;> exact h
  cases hn : numEvent l with
  | ok ev => rw [hn] at h'; exact ⟨ev, rfl, h'⟩
  | err => rw [hn] at h'; cases h'
  | panic => rw [hn] at h'; cases h'

theorem finite_closed (E : Env) : DecodeClosed E (fun _ => True) (fun _ v => v.Finite) where
  elems := fun _ _ _ => trivial
  members := fun _ _ _ => trivial
  scalar := by
    intro j t v _ h
    cases j with
    | null => cases t <;> cases h <;> exact .null
    | bool b => cases t <;> cases h <;> exact .bool b
    | str s =>
      cases t with
      | enm i =>
        simp only [decodeScalar, Option.map_eq_some_iff] at h
        obtain ⟨i, -, rfl⟩ := h
        exact .enm i
      | _ => cases h <;> exact .str s
    | arr xs => cases t <;> cases h
    | obj xs => cases t <;> cases h
    | num l =>
      obtain ⟨ev, h1, h2⟩ := decodeScalar_num h
      rcases numEvent_range h1 with ⟨n, rfl, hn, -⟩ | ⟨z, rfl, hz1, hz2, -⟩ | ⟨m, e, rfl, hv⟩
      · cases t with
        | int s b =>
          cases s <;> simp only [decodeNum] at h2 <;> split at h2 <;> cases h2 <;> exact .int _
        | f64 =>
          cases h2
          obtain ⟨m, e, h, -⟩ := ofNat_near hn
          exact .f64 (by rw [h]; rfl)
        | f32 => cases h2; exact .f32 _
        | number => cases h2; exact .numU _
        | value => cases h2; exact .numU _
        | _ => cases h2
      · cases t with
        | int s b =>
          simp only [decodeNum] at h2; split at h2 <;> cases h2; exact .int _
        | f64 =>
          cases h2
          have : i64Min = -9223372036854775808 := rfl
          have : u64Max = 18446744073709551615 := rfl
          obtain ⟨m, e, h, -⟩ := ofInt_fin (z := z) (by omega)
          exact .f64 (by rw [h]; rfl)
        | f32 => cases h2; exact .f32 _
        | number => cases h2; exact .numI _
        | value => cases h2; exact .numI _
        | _ => cases h2
      · cases t with
        | int s b => cases s <;> cases h2
        | f64 => cases h2; exact .f64 rfl
        | f32 => cases h2; exact .f32 _
        | number => cases h2; exact .numF rfl
        | value => cases h2; exact .numF rfl
        | _ => cases h2
  none := fun _ => .optNone
  some := fun h => .optSome h
  box := fun h => .box h
  vec := fun h => .seq h
  array := fun _ h => .seq h
  arr := fun _ h => .seq h
  tup := fun hx hy => .seq (by
    intro v hv
    simp only [List.mem_cons, List.not_mem_nil, or_false] at hv
    rcases hv with rfl | rfl
    · exact hx
    · exact hy)
  hmap := fun _ _ h => .map (fun x hx => by
    rcases foldl_hash_mem _ _ x hx with hx | hx
    · exact h x hx
    · cases hx)
  bmap := fun _ _ h => .map (fun x hx => by
    obtain ⟨-, y, hy, e⟩ := foldl_btree_mem _ _ x hx
    rw [List.append_nil] at hy
    exact e ▸ h y hy)
  object := fun _ _ _ h => .map (fun x hx => by
    obtain ⟨-, y, hy, e⟩ := foldl_btree_mem _ _ x hx
    rw [List.append_nil] at hy
    exact e ▸ h y hy)
  strct := fun {i vs} hn h => .strct (fun v hv => by
    obtain ⟨j, hj, e⟩ := List.getElem_of_mem hv
    have hj' : j < (E.fields i).length := by omega
    exact h j _ v (List.getElem?_eq_getElem hj') (by rw [List.getElem?_eq_getElem hj, e]))

/-- **Every `f64` in a decoded value is finite.** -/
theorem decode_finite {E : Env} {j : Json} {t : Ty} {v : Val} (h : decode E j t = some v) : v.Finite :=
  decode_forall (finite_closed E) trivial h

theorem entries_keys {E : Env} {parse : Bytes → Option Bytes} {t : Ty} {ms : List (Bytes × Json)} {kvs : List (Bytes × Val)}
    (h : DecodedEntries E parse t ms kvs) : ∀ kv ∈ kvs, ∃ m ∈ ms, parse m.1 = some kv.1 := by
  induction h with
  | nil => intro kv hkv; cases hkv
  | @cons k k' x v ms kvs hk hv hs ih =>
    intro kv hkv
    rcases List.mem_cons.1 hkv with rfl | hkv
    · exact ⟨(k, x), List.mem_cons_self, hk⟩
    · obtain ⟨m, hm, e⟩ := ih kv hkv
      exact ⟨m, List.mem_cons_of_mem _ hm, e⟩

theorem hasTy_closed {E : Env} (hE : E.Lawful) : DecodeClosed E Json.Utf8 (fun t v => t.Small → HasTy E t v) where
  elems := fun h => by cases h; assumption
  members := fun h => by cases h; assumption
  scalar := by
    intro j t v hj h hs
    cases j with
    | null =>
      cases t <;> cases h
      · exact .unit
      · exact .vNull
    | bool b =>
      cases t <;> cases h
      · exact .bool b
      · exact .vBool b
    | str s =>
      have hu : ValidUtf8 s := by cases hj; assumption
      cases t with
      | enm i =>
        simp only [decodeScalar, Option.map_eq_some_iff] at h
        obtain ⟨j, h1, rfl⟩ := h
        exact .enm (List.findIdx?_eq_some_iff_getElem.1 h1).1
      | string => cases h; exact .string hu
      | value => cases h; exact .vStr hu
      | _ => cases h
    | arr xs => cases t <;> cases h
    | obj xs => cases t <;> cases h
    | num l =>
      obtain ⟨ev, h1, h2⟩ := decodeScalar_num h
      have c1 : i64Min = -9223372036854775808 := rfl
      have c2 : i64Max = 9223372036854775807 := rfl
      rcases numEvent_range h1 with ⟨n, rfl, hn, -⟩ | ⟨z, rfl, hz1, hz2, -⟩ | ⟨m, e, rfl, hv⟩
      · cases t with
        | int s b =>
          cases s
          · simp only [decodeNum] at h2; split at h2 <;> cases h2
            refine .int hs ?_
            simp only [lowest, highest, Bool.false_eq_true, if_false]
            omega
          · simp only [decodeNum] at h2; split at h2 <;> cases h2
            refine .int hs ?_
            simp only [lowest, highest, if_true]
            have : (0 : Int) < 2 ^ (b - 1) := by positivity
            omega
        | f64 => cases h2; exact .f64 (ofNat_outcome binary64_ok n).valid
        | f32 => cases h2; exact .f32 (ofNat_outcome binary32_ok n).valid
        | number => cases h2; exact .numU (.inl rfl) hn
        | value => cases h2; exact .numU (.inr rfl) hn
        | _ => cases h2
      · cases t with
        | int s b =>
          simp only [decodeNum] at h2; split at h2 <;> cases h2
          rename_i h3
          obtain ⟨rfl, h3⟩ := h3
          refine .int hs ?_
          simp only [lowest, highest, if_true]
          have : (0 : Int) < 2 ^ (b - 1) := by positivity
          omega
        | f64 => cases h2; exact .f64 (ofInt_outcome binary64_ok z).valid
        | f32 => cases h2; exact .f32 (ofInt_outcome binary32_ok z).valid
        | number => cases h2; exact .numI (.inl rfl) ⟨hz1, by omega⟩
        | value => cases h2; exact .numI (.inr rfl) ⟨hz1, by omega⟩
        | _ => cases h2
      · cases t with
        | int s b => cases s <;> cases h2
        | f64 => cases h2; exact .f64 hv
        | f32 => cases h2; exact .f32 (cast_outcome binary32_ok _ _ _).valid
        | number => cases h2; exact .numF (.inl rfl) hv
        | value => cases h2; exact .numF (.inr rfl) hv
        | _ => cases h2
  none := fun _ _ => .none _
  some := fun h hs => .some (h hs)
  box := fun h hs => .box (h hs)
  vec := fun h hs => .vec (fun v hv => h v hv hs)
  array := fun ht h _ => .array ht (fun v hv => h v hv trivial)
  arr := fun hn h hs => .arr hn (fun v hv => h v hv hs)
  tup := fun hx hy hs => .tup (hx hs.1) (hy hs.2)
  hmap := fun {k t ms kvs} hj hd h hs => .hmap (foldl_hash kvs [] (by simp)).1
    (fun x hx => by
      rcases foldl_hash_mem _ _ x hx with hx | hx
      · obtain ⟨m, hm, e⟩ := entries_keys hd x hx
        exact hE.keyShow k _ _ (by cases hj with | obj hk _ => exact hk m hm) e
      · cases hx)
    (fun x hx => by
      rcases foldl_hash_mem _ _ x hx with hx | hx
      · exact h x hx hs
      · cases hx)
  bmap := fun {k t ms kvs} hj hd h hs => .bmap (foldl_btree (hE.keyLt k) kvs [] List.Pairwise.nil).1
    (fun x hx => by
      obtain ⟨⟨y, hy, e⟩, -⟩ := foldl_btree_mem _ _ x hx
      rw [List.append_nil] at hy
      obtain ⟨m, hm, e'⟩ := entries_keys hd y hy
      rw [← e]
      exact hE.keyShow k _ _ (by cases hj with | obj hk _ => exact hk m hm) e')
    (fun x hx => by
      obtain ⟨-, y, hy, e⟩ := foldl_btree_mem _ _ x hx
      rw [List.append_nil] at hy
      exact e ▸ h y hy hs)
  object := fun {t ms kvs} ht hj hd h hs => .object ht
    (fun x hx => by
      obtain ⟨⟨y, hy, e⟩, -⟩ := foldl_btree_mem _ _ x hx
      rw [List.append_nil] at hy
      obtain ⟨m, hm, e'⟩ := entries_keys hd y hy
      rw [← e]
      simp only [Option.some.injEq] at e'
      rw [← e']
      cases hj with
      | obj hk _ => exact hk m hm)
    (foldl_btree strLt_linear kvs [] List.Pairwise.nil).1
    (fun x hx => by
      obtain ⟨-, y, hy, e⟩ := foldl_btree_mem _ _ x hx
      rw [List.append_nil] at hy
      exact e ▸ h y hy trivial)
  strct := fun {i vs} hn h _ => .strct hn (fun j f v hf hv => h j f v hf hv (hE.small i f (List.mem_of_getElem? hf)))

/-- **Decoded values are values of the type.** -/
theorem decode_hasTy {E : Env} (hE : E.Lawful) {j : Json} (hj : j.Utf8) {t : Ty} (ht : t.Small) {v : Val}
    (h : decode E j t = some v) : HasTy E t v :=
  decode_forall (hasTy_closed hE) hj h ht

/-! ## The strings of a JSON text -/

mutual

theorem jvalue_utf8 : ∀ {t : Bytes} {j : Json} (_ : JValue t j) {r : Bytes}, ValidUtf8 (t ++ r) → j.Utf8 ∧ ValidUtf8 r
  | _, _, .null, _, h => ⟨.null, valid_drop_ascii (by decide) h⟩
  | _, _, .true, _, h => ⟨.bool _, valid_drop_ascii (by decide) h⟩
  | _, _, .false, _, h => ⟨.bool _, valid_drop_ascii (by decide) h⟩
  | _, _, .num l hl, _, h => ⟨.num l, valid_drop_ascii (num_ascii hl) h⟩
  | _, _, .str hs, _, h => by
    obtain ⟨h1, h2⟩ := jstring_valid hs h
    exact ⟨.str h1, h2⟩
  | _, _, .arrEmpty hw, _, h => by
    refine ⟨.arr (by simp), valid_drop_ascii (a := 0x5B :: (_ ++ [0x5D])) ?_ h⟩
    intro c hc
    simp only [List.mem_cons, List.mem_append, List.not_mem_nil, or_false] at hc
    rcases hc with rfl | hc | rfl
    · decide
    · exact ws_ascii hw c hc
    · decide
  | _, _, .arr (t := t) hs, r, h => by
    have h1 : ValidUtf8 (t ++ 0x5D :: r) := by
      refine valid_drop_ascii (a := [0x5B]) (by simp) ?_
      simpa using h
    obtain ⟨h2, h3⟩ := jelements_utf8 hs h1
    exact ⟨.arr h2, valid_drop_ascii (a := [0x5D]) (by simp) (by simpa using h3)⟩
  | _, _, .objEmpty hw, _, h => by
    refine ⟨.obj (by simp) (by simp), valid_drop_ascii (a := 0x7B :: (_ ++ [0x7D])) ?_ h⟩
    intro c hc
    simp only [List.mem_cons, List.mem_append, List.not_mem_nil, or_false] at hc
    rcases hc with rfl | hc | rfl
    · decide
    · exact ws_ascii hw c hc
    · decide
  | _, _, .obj (t := t) hs, r, h => by
    have h1 : ValidUtf8 (t ++ 0x7D :: r) := by
      refine valid_drop_ascii (a := [0x7B]) (by simp) ?_
      simpa using h
    obtain ⟨h2, h3⟩ := jmembers_utf8 hs h1
    exact ⟨.obj (fun m hm => (h2 m hm).1) (fun m hm => (h2 m hm).2), valid_drop_ascii (a := [0x7D]) (by simp) (by simpa using h3)⟩

theorem jelements_utf8 : ∀ {t : Bytes} {xs : List Json} (_ : JElements t xs) {r : Bytes}, ValidUtf8 (t ++ r) →
    (∀ x ∈ xs, x.Utf8) ∧ ValidUtf8 r
  | _, _, .one (t := t) h₁ hv h₂, r, h => by
    have h1 := valid_drop_ascii (ws_ascii h₁) (by simpa using h)
    obtain ⟨h2, h3⟩ := jvalue_utf8 hv h1
    exact ⟨by simpa using h2, valid_drop_ascii (ws_ascii h₂) h3⟩
  | _, _, .cons (t := t) (w₂ := w₂) (ts := ts) h₁ hv h₂ hs, r, h => by
    have h1 := valid_drop_ascii (ws_ascii h₁) (by simpa using h)
    obtain ⟨h2, h3⟩ := jvalue_utf8 hv h1
    have h4 := valid_drop_ascii (ws_ascii h₂) h3
    have h5 := valid_drop_ascii (a := [0x2C]) (b := ts ++ r) (by simp) (by simpa using h4)
    obtain ⟨h6, h7⟩ := jelements_utf8 hs h5
    exact ⟨by simpa using ⟨h2, h6⟩, h7⟩

theorem jmembers_utf8 : ∀ {t : Bytes} {ms : List (Bytes × Json)} (_ : JMembers t ms) {r : Bytes}, ValidUtf8 (t ++ r) →
    (∀ m ∈ ms, ValidUtf8 m.1 ∧ m.2.Utf8) ∧ ValidUtf8 r
  | _, _, .one (k := k) (w₂ := w₂) (w₃ := w₃) (t := t) (w₄ := w₄) h₁ hk h₂ h₃ hv h₄, r, h => by
    have h1 := valid_drop_ascii (ws_ascii h₁) (by simpa using h)
    obtain ⟨h2, h3⟩ := jstring_valid hk h1
    have h4 := valid_drop_ascii (ws_ascii h₂) h3
    have h5 := valid_drop_ascii (a := [0x3A]) (b := w₃ ++ (t ++ (w₄ ++ r))) (by simp) (by simpa using h4)
    have h6 := valid_drop_ascii (ws_ascii h₃) h5
    obtain ⟨h7, h8⟩ := jvalue_utf8 hv h6
    exact ⟨by simpa using ⟨h2, h7⟩, valid_drop_ascii (ws_ascii h₄) h8⟩
  | _, _, .cons (k := k) (w₂ := w₂) (w₃ := w₃) (t := t) (w₄ := w₄) (ts := ts) h₁ hk h₂ h₃ hv h₄ hs, r, h => by
    have h1 := valid_drop_ascii (ws_ascii h₁) (by simpa using h)
    obtain ⟨h2, h3⟩ := jstring_valid hk h1
    have h4 := valid_drop_ascii (ws_ascii h₂) h3
    have h5 := valid_drop_ascii (a := [0x3A]) (b := w₃ ++ (t ++ (w₄ ++ 0x2C :: (ts ++ r)))) (by simp) (by simpa using h4)
    have h6 := valid_drop_ascii (ws_ascii h₃) h5
    obtain ⟨h7, h8⟩ := jvalue_utf8 hv h6
    have h9 := valid_drop_ascii (ws_ascii h₄) h8
    have h10 := valid_drop_ascii (a := [0x2C]) (b := ts ++ r) (by simp) (by simpa using h9)
    obtain ⟨h11, h12⟩ := jmembers_utf8 hs h10
    refine ⟨?_, h12⟩
    intro m hm
    rcases List.mem_cons.1 hm with rfl | hm
    · exact ⟨h2, h7⟩
    · exact h11 m hm

end

theorem jtext_utf8 {s : Bytes} {j : Json} (h : JText s j) (hs : ValidUtf8 s) : j.Utf8 := by
  obtain ⟨w₁, t, w₂, rfl, h₁, hv, h₂⟩ := h
  exact (jvalue_utf8 hv (valid_drop_ascii (ws_ascii h₁) hs)).1

end Miniserde
