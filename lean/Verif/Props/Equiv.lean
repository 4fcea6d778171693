import Verif.Proof.DecodeInd
import Verif.Props.Typed

/-!
# Relations between types
-/

namespace Miniserde

/-! ## Everything is a `Value` -/

theorem representables_iff (xs : List Json) : representables xs = true ↔ ∀ x ∈ xs, representable x = true := by
  induction xs with
  | nil => simp [representables]
  | cons x xs ih => simp [representables, ih]

theorem representableMembers_iff (ms : List (Bytes × Json)) : representableMembers ms = true ↔ ∀ m ∈ ms, representable m.2 = true := by
  induction ms with
  | nil => simp [representableMembers]
  | cons m ms ih => obtain ⟨k, x⟩ := m; simp [representableMembers, ih]

section
variable {E : Env}

theorem decodeAll_each {t : Ty} : ∀ {xs : List Json} {vs}, decodeAll E xs t = some vs → ∀ x ∈ xs, ∃ v, decode E x t = some v
  | [], _, _, _, h => nomatch h
  | x :: xs, vs, e, y, hy => by
    rw [decodeAll] at e
    simp only [Option.bind_eq_some_iff, Option.map_eq_some_iff] at e
    obtain ⟨v, h1, us, h2, rfl⟩ := e
    rcases List.mem_cons.1 hy with rfl | hy
    · exact ⟨v, h1⟩
    · exact decodeAll_each h2 y hy

theorem decodeEntries_each {parse : Bytes → Option Bytes} {t : Ty} : ∀ {ms : List (Bytes × Json)} {kvs}, decodeEntries E parse t ms = some kvs →
    ∀ m ∈ ms, ∃ v, decode E m.2 t = some v
  | [], _, _, _, h => nomatch h
  | (k, x) :: ms, kvs, e, y, hy => by
    rw [decodeEntries] at e
    simp only [Option.bind_eq_some_iff, Option.map_eq_some_iff] at e
    obtain ⟨k', -, v, h1, us, h2, rfl⟩ := e
    rcases List.mem_cons.1 hy with rfl | hy
    · exact ⟨v, h1⟩
    · exact decodeEntries_each h2 y hy

theorem decodeFields_each {fs : List (Bytes × Ty)} : ∀ {ms : List (Bytes × Json)} {ivs}, decodeFields E fs ms = some ivs →
    ∀ m ∈ ms, representable m.2 = true ∨ ∃ t v, decode E m.2 t = some v
  | [], _, _, _, h => nomatch h
  | (k, x) :: ms, kvs, e, y, hy => by
    rw [decodeFields] at e
    split at e
    · split at e
      · simp only [Option.bind_eq_some_iff, Option.map_eq_some_iff] at e
        obtain ⟨v, h1, us, h2, rfl⟩ := e
        rcases List.mem_cons.1 hy with rfl | hy
        · exact .inr ⟨_, v, h1⟩
        · exact decodeFields_each h2 y hy
      · cases e
    · split at e
      · rename_i hr
        rcases List.mem_cons.1 hy with rfl | hy
        · exact .inl hr
        · exact decodeFields_each e y hy
      · cases e

theorem representable_of_decode (n : Nat) : ∀ j : Json, sizeOf j < n → ∀ t v, decode E j t = some v → representable j = true := by
  induction n with
  | zero => intro j hj; omega
  | succ n ih =>
    intro j hj t
    induction t with
    | opt t iht =>
      intro v e
      rw [decode] at e
      split at e
      · cases j <;> first | rfl | (simp [Json.isNull] at *; done)
      · simp only [Option.map_eq_some_iff] at e
        obtain ⟨u, h1, rfl⟩ := e
        exact iht u h1
    | box t iht =>
      intro v e
      rw [decode] at e
      simp only [Option.map_eq_some_iff] at e
      obtain ⟨u, h1, rfl⟩ := e
      exact iht u h1
    | _ =>
      intro v e
      match j with
      | .arr xs =>
        have hx : ∀ x ∈ xs, ∀ t v, decode E x t = some v → representable x = true := by
          intro x hx
          have := List.sizeOf_lt_of_mem hx
          simp at hj
          exact ih x (by omega)
        rw [representable, representables_iff]
        intro x hxm
        unfold decode at e
        first
          | (cases e; done)
          | (simp only [Option.map_eq_some_iff] at e
             obtain ⟨vs, h1, rfl⟩ := e
             obtain ⟨v, hv⟩ := decodeAll_each h1 x hxm
             exact hx x hxm _ _ hv)
          | (rename_i t' m _
             by_cases hn : xs.length = m
             · simp only [hn, if_true, Option.map_eq_some_iff] at e
               obtain ⟨vs, h1, rfl⟩ := e
               obtain ⟨v, hv⟩ := decodeAll_each h1 x hxm
               exact hx x hxm _ _ hv
             · simp only [hn, if_false] at e
               cases e)
          | (rcases xs with _ | ⟨x', _ | ⟨y, _ | ⟨z, xs⟩⟩⟩
             · cases e
             · cases e
             · simp only [Option.bind_eq_some_iff, Option.map_eq_some_iff] at e
               obtain ⟨vx, h1, vy, h2, rfl⟩ := e
               simp only [List.mem_cons, List.not_mem_nil, or_false] at hxm
               rcases hxm with rfl | rfl
               · exact hx _ List.mem_cons_self _ _ h1
               · exact hx _ (List.mem_cons_of_mem _ List.mem_cons_self) _ _ h2
             · cases e)
      | .obj ms =>
        have hx : ∀ m ∈ ms, ∀ t v, decode E m.2 t = some v → representable m.2 = true := by
          intro m hm
          have := List.sizeOf_lt_of_mem hm
          have h2 : sizeOf m.2 < sizeOf m := by cases m; simp; omega
          simp at hj
          exact ih m.2 (by omega)
        rw [representable, representableMembers_iff]
        intro m hm
        unfold decode at e
        first
          | (cases e; done)
          | (simp only [Option.map_eq_some_iff] at e
             obtain ⟨kvs, h1, rfl⟩ := e
             obtain ⟨v, hv⟩ := decodeEntries_each h1 m hm
             exact hx m hm _ _ hv)
          | (simp only [Option.bind_eq_some_iff, Option.map_eq_some_iff] at e
             obtain ⟨ivs, h1, vs, h2, rfl⟩ := e
             rcases decodeFields_each h1 m hm with h | ⟨t, v, h⟩
             · exact h
             · exact hx m hm _ _ h)
      | .null => rfl
      | .bool b => rfl
      | .str s => rfl
      | .num l =>
        rw [decode_base E (j := .num l) rfl (fun _ h => nomatch h) (fun _ h => nomatch h)] at e
        rw [representable]
        simp only [decodeScalar] at e
        cases h : numEvent l with
        | ok ev => rfl
        | err => rw [h] at e; cases e
        | panic => rw [h] at e; cases e

end

/-- **C45.** Whatever any library or derived type accepts, `Value` accepts. -/
theorem C45_value_accepts_most (E : Env) (t : Ty) (s : Bytes) (v : Val) (h : parseAs E t s = some (.ok v)) :
    ∃ u, parseAs E .value s = some (.ok u) := by
  obtain ⟨j, hj, hd⟩ := (C04_ok E t s v).1 h
  exact (C03_accepts E s).2 ⟨j, hj, representable_of_decode _ j (Nat.lt_succ_self _) t v hd⟩

/-- **C45, `Array`.** `Array` deserializes exactly as `Vec<Value>`. -/
theorem C45_array_is_vec (E : Env) (s : Bytes) (hs : s.length < 2 ^ 31) : parseAs E .array s = parseAs E (.vec .value) s := by
  have key : ∀ j, decode E j .array = decode E j (.vec .value) := by
    intro j
    unfold decode
    cases j with
    | num l =>
      have h1 : decodeScalar E (.num l) (.array) = none := decode_num_none E fun ev => by cases ev <;> rfl
      have h2 : decodeScalar E (.num l) (.vec .value) = none := decode_num_none E fun ev => by cases ev <;> rfl
      exact h1.trans h2.symm
    | _ => rfl
  by_cases h : ∃ j, JText s j
  · obtain ⟨j, hj⟩ := h
    rw [(C04_compositional E .array s hs).1 j hj, (C04_compositional E (.vec .value) s hs).1 j hj, key]
  · rw [(C04_compositional E .array s hs).2 h, (C04_compositional E (.vec .value) s hs).2 h]

/-- **C45, `Object`.** `Object` deserializes exactly as `BTreeMap<String, Value>`; `k` is the key type `String`. -/
theorem C45_object_is_map (E : Env) (k : Nat) (hk : E.keyParse k = some) (hlt : E.keyLt k = fun a b => decide (a < b)) (s : Bytes)
    (hs : s.length < 2 ^ 31) : parseAs E .object s = parseAs E (.bmap k .value) s := by
  have hlt' : E.keyLt k = strLt := hlt
  have key : ∀ j, decode E j .object = decode E j (.bmap k .value) := by
    intro j
    unfold decode
    cases j with
    | num l =>
      have h1 : decodeScalar E (.num l) (.object) = none := decode_num_none E fun ev => by cases ev <;> rfl
      have h2 : decodeScalar E (.num l) (.bmap k .value) = none := decode_num_none E fun ev => by cases ev <;> rfl
      exact h1.trans h2.symm
    | obj ms => simp only [hk, hlt']
    | _ => rfl
  by_cases h : ∃ j, JText s j
  · obtain ⟨j, hj⟩ := h
    rw [(C04_compositional E .object s hs).1 j hj, (C04_compositional E (.bmap k .value) s hs).1 j hj, key]
  · rw [(C04_compositional E .object s hs).2 h, (C04_compositional E (.bmap k .value) s hs).2 h]

/-- The key type `String` of the example environment. -/
example : exEnv.keyParse 0 = some ∧ exEnv.keyLt 0 = fun a b => decide (a < b) := ⟨rfl, rfl⟩

/-! ## Absent and null fields -/

/-- **C44.** For an `Option` field of a derived struct, an absent member and an explicit `null` are indistinguishable, wherever the `null`
member is placed. -/
theorem C44_null_is_absent (E : Env) (i : Nat) (hn : ((E.fields i).map Prod.fst).Nodup) (n : Bytes) (t : Ty)
    (hf : (n, .opt t) ∈ E.fields i) (ms₁ ms₂ : List (Bytes × Json)) (ha : n ∉ (ms₁ ++ ms₂).map Prod.fst) (s s' : Bytes)
    (hs : s.length < 2 ^ 31) (hs' : s'.length < 2 ^ 31) (h : JText s (.obj (ms₁ ++ ms₂))) (h' : JText s' (.obj (ms₁ ++ (n, .null) :: ms₂))) :
    parseAs E (.strct i) s = parseAs E (.strct i) s' := by
  rw [(C04_compositional E _ s hs).1 _ h, (C04_compositional E _ s' hs').1 _ h']
  have key : ∀ v, decode E (.obj (ms₁ ++ ms₂)) (.strct i) = some v ↔ decode E (.obj (ms₁ ++ (n, .null) :: ms₂)) (.strct i) = some v := by
    intro v
    rw [decode_strct E hn, decode_strct E hn]
    have hnull : decode E .null (.opt t) = some .optNone := by rw [decode]; rfl
    have hfit : MemberFits E (E.fields i) (n, .null) := by
      obtain ⟨q, hq⟩ := List.getElem?_of_mem hf
      obtain ⟨t', g1, g2⟩ := lookup_of_idx ((fieldIdx_some hn (k := n) hq).2 rfl)
      rw [hq] at g1; simp only [Option.some.injEq, Prod.mk.injEq, true_and] at g1; subst g1
      simp only [MemberFits, g2]
      exact ⟨_, hnull⟩
    have hfo : ∀ (j : Nat) a u x, (E.fields i)[j]? = some (a, u) → (FieldHas E (ms₁ ++ ms₂) a u x ↔ FieldHas E (ms₁ ++ (n, .null) :: ms₂) a u x) := by
      intro j a u x hj
      by_cases han : a = n
      · subst han
        have h1 : lastOcc a (ms₁ ++ ms₂) = none := by
          unfold lastOcc
          rw [List.lookup_eq_none_iff]
          intro m hm
          simp only [bne_iff_ne, ne_eq]
          rintro rfl
          exact ha (List.mem_map.2 ⟨m, List.mem_reverse.1 hm, rfl⟩)
        have h2 : lastOcc a ms₂ = none ∧ lastOcc a ms₁ = none := by
          rw [lastOcc_append] at h1
          cases hh : lastOcc a ms₂ <;> simp [hh] at h1 ⊢
          exact h1
        have hu : u = .opt t := by
          obtain ⟨q, hq⟩ := List.getElem?_of_mem hf
          have e1 := (fieldIdx_some hn (k := a) hq).2 rfl
          have e2 := (fieldIdx_some hn (k := a) hj).2 rfl
          rw [e1] at e2
          simp only [Option.some.injEq] at e2
          subst e2
          rw [hj] at hq
          simpa using hq
        subst hu
        simp only [FieldHas, h1]
        rw [lastOcc_append, lastOcc_cons, h2.1, if_pos rfl]
        simp only [Option.none_or, Option.some_or, hnull, Option.some.injEq, Ty.opt.injEq, exists_eq', true_and]
        exact eq_comm
      · have : lastOcc a (ms₁ ++ (n, .null) :: ms₂) = lastOcc a (ms₁ ++ ms₂) := by
          rw [lastOcc_append, lastOcc_append, lastOcc_cons, if_neg han, Option.or_none]
        simp only [FieldHas, this]
    constructor
    · rintro ⟨vs, rfl, h1, h2, h3⟩
      refine ⟨vs, rfl, ?_, h2, fun j a u hj => ?_⟩
      · intro m hm
        simp only [List.mem_append, List.mem_cons] at hm
        rcases hm with hm | rfl | hm
        · exact h1 m (by simp [hm])
        · exact hfit
        · exact h1 m (by simp [hm])
      · obtain ⟨x, hx, hx'⟩ := h3 j a u hj
        exact ⟨x, hx, (hfo j a u x hj).1 hx'⟩
    · rintro ⟨vs, rfl, h1, h2, h3⟩
      refine ⟨vs, rfl, ?_, h2, fun j a u hj => ?_⟩
      · intro m hm
        exact h1 m (by simp only [List.mem_append, List.mem_cons] at hm ⊢; exact hm.imp_right .inr)
      · obtain ⟨x, hx, hx'⟩ := h3 j a u hj
        exact ⟨x, hx, (hfo j a u x hj).2 hx'⟩
  have : decode E (.obj (ms₁ ++ ms₂)) (.strct i) = decode E (.obj (ms₁ ++ (n, .null) :: ms₂)) (.strct i) := Option.ext key
  rw [this]

/-- `Point` from `{"x":1}` and from `{"tag":null,"x":1}`. -/
example : (str! "tag", Ty.opt .string) ∈ exEnv.fields 0 ∧ str! "tag" ∉ ([] ++ [(str! "x", Json.num litOne)] : List (Bytes × Json)).map Prod.fst :=
  ⟨by simp [exEnv], by decide⟩

end Miniserde
