import Verif.Spec.Reparse
import Verif.Proof.RoundTrip
import Verif.Proof.TypeSound

/-!
# Reparsing a `Value`
-/

namespace Miniserde

variable {E : Env} {lit : F64 → NumLit}

/-! ## The canonical form -/

mutual

theorem canon_normal : ∀ {v : Val}, v.Normal → v.canon = v
  | .null, _ | .bool _, _ | .str _, _ | .numU _, _ => by simp only [Val.canon]
  | .numI z, h => by cases h with | numI h => simp only [Val.canon, if_pos h]
  | .seq vs, h => by cases h with | seq h => rw [Val.canon, canons_normal h]
  | .map ms, h => by cases h with | map h => rw [Val.canon, canonMembers_normal h]
  | .int _, h => nomatch h
  | .f32 _, h => nomatch h
  | .f64 _, h => nomatch h
  | .numF _, h => nomatch h
  | .optNone, h => nomatch h
  | .optSome _, h => nomatch h
  | .box _, h => nomatch h
  | .strct _, h => nomatch h
  | .enm _, h => nomatch h

theorem canons_normal : ∀ {vs : List Val}, (∀ v ∈ vs, v.Normal) → canons vs = vs
  | [], _ => by rw [canons]
  | v :: vs, h => by rw [canons, canon_normal (h v List.mem_cons_self), canons_normal fun v hv => h v (List.mem_cons_of_mem _ hv)]

theorem canonMembers_normal : ∀ {ms : List (Bytes × Val)}, (∀ m ∈ ms, m.2.Normal) → canonMembers ms = ms
  | [], _ => by rw [canonMembers]
  | (k, v) :: ms, h => by
    rw [canonMembers, canon_normal (h (k, v) List.mem_cons_self), canonMembers_normal fun m hm => h m (List.mem_cons_of_mem _ hm)]

end

theorem canonMembers_mem : ∀ {ms : List (Bytes × Val)} {m : Bytes × Val}, m ∈ canonMembers ms → ∃ v, (m.1, v) ∈ ms ∧ m.2 = v.canon
  | [], m, h => by rw [canonMembers] at h; cases h
  | (k, v) :: ms, m, h => by
    rw [canonMembers, List.mem_cons] at h
    rcases h with rfl | h
    · exact ⟨v, List.mem_cons_self, rfl⟩
    · obtain ⟨v, h1, h2⟩ := canonMembers_mem h
      exact ⟨v, List.mem_cons_of_mem _ h1, h2⟩

theorem canonMembers_sorted {lt : Bytes → Bytes → Bool} : ∀ {ms : List (Bytes × Val)}, SortedKeys lt ms → SortedKeys lt (canonMembers ms)
  | [], _ => by rw [canonMembers]; exact List.Pairwise.nil
  | (k, v) :: ms, h => by
    unfold SortedKeys at h
    rw [List.pairwise_cons] at h
    rw [canonMembers]
    refine List.pairwise_cons.2 ⟨fun m hm => ?_, canonMembers_sorted h.2⟩
    obtain ⟨v, h1, -⟩ := canonMembers_mem hm
    exact h.1 (m.1, v) h1

mutual

/-- The canonical form is a `Value` that can be read back, and it has an encoding with the same tree. -/
theorem canon_encodes : ∀ {v : Val} {x : FTree}, Encodes E .value v x → HasTy E .value v → v.FloatFree →
    HasTy E .value v.canon ∧ v.canon.Normal ∧ ∃ x', Encodes E .value v.canon x' ∧ x'.json lit = x.json lit
  | _, _, .numU _ n _, ht, _ => by
    simp only [Val.canon]
    exact ⟨ht, .numU n, _, .numU _ n (.inr rfl), rfl⟩
  | _, _, .numI _ z _, ht, _ => by
    cases ht with
    | numI _ h =>
      by_cases hz : z < 0
      · simp only [Val.canon, if_pos hz]
        exact ⟨.numI (.inr rfl) h, .numI hz, _, .numI _ z (.inr rfl), rfl⟩
      · simp only [Val.canon, if_neg hz]
        refine ⟨.numU (.inr rfl) ?_, .numU _, _, .numU _ _ (.inr rfl), ?_⟩
        · have := h.2; unfold i64Max at this; unfold u64Max; omega
        · simp only [FTree.json, hz, decide_false]
          congr 2
          rw [show z.toNat = z.natAbs by omega]
  | _, _, .numF _ _ _, _, hf => nomatch hf
  | _, _, .vNull, ht, _ => by simp only [Val.canon]; exact ⟨ht, .null, _, .vNull, rfl⟩
  | _, _, .vBool b, ht, _ => by simp only [Val.canon]; exact ⟨ht, .bool b, _, .vBool b, rfl⟩
  | _, _, .vStr s, ht, _ => by simp only [Val.canon]; exact ⟨ht, .str s, _, .vStr s, rfl⟩
  | _, _, .array _ hs, h, hf => by
    cases h with
    | array _ h =>
      cases hf with
      | seq hf =>
        obtain ⟨h1, h2, xs, h3, h4⟩ := canons_encodes hs h hf
        rw [Val.canon]
        exact ⟨.array (.inr rfl) h1, .seq h2, _, .array (.inr rfl) h3, by simp only [FTree.json, h4]⟩
  | _, _, .object (ms := ms) _ hs, h, hf => by
    cases h with
    | object _ hk hso h =>
      cases hf with
      | map hf =>
        obtain ⟨h1, h2, xs, h3, h4⟩ := canonMembers_encodes hs h hf
        rw [Val.canon]
        refine ⟨.object (.inr rfl) (fun m hm => ?_) (canonMembers_sorted hso) h1, .map h2, _, .object (.inr rfl) h3, by simp only [FTree.json, h4]⟩
        obtain ⟨v, hv, -⟩ := canonMembers_mem hm
        exact hk (m.1, v) hv

theorem canons_encodes : ∀ {vs : List Val} {xs : List FTree}, EncodesAll E .value vs xs → (∀ v ∈ vs, HasTy E .value v) →
    (∀ v ∈ vs, v.FloatFree) → (∀ v ∈ canons vs, HasTy E .value v) ∧ (∀ v ∈ canons vs, v.Normal) ∧
      ∃ xs', EncodesAll E .value (canons vs) xs' ∧ FTree.jsons lit xs' = FTree.jsons lit xs
  | _, _, .nil _, _, _ => by
    rw [canons]
    exact ⟨fun _ h => (nomatch h), fun _ h => (nomatch h), _, .nil _, rfl⟩
  | _, _, .cons h hs, ht, hf => by
    obtain ⟨a1, a2, x', a3, a4⟩ := canon_encodes h (ht _ List.mem_cons_self) (hf _ List.mem_cons_self)
    obtain ⟨b1, b2, xs', b3, b4⟩ := canons_encodes hs (fun v hv => ht v (List.mem_cons_of_mem _ hv)) fun v hv => hf v (List.mem_cons_of_mem _ hv)
    rw [canons]
    refine ⟨fun v hv => ?_, fun v hv => ?_, _, .cons a3 b3, by simp only [FTree.jsons, a4, b4]⟩ <;>
    rcases List.mem_cons.1 hv with rfl | hv
    · exact a1
    · exact b1 v hv
    · exact a2
    · exact b2 v hv

theorem canonMembers_encodes : ∀ {ms : List (Bytes × Val)} {xs : List (Bytes × FTree)}, EncodesEntries E (fun k => k) .value ms xs →
    (∀ m ∈ ms, HasTy E .value m.2) → (∀ m ∈ ms, m.2.FloatFree) →
    (∀ m ∈ canonMembers ms, HasTy E .value m.2) ∧ (∀ m ∈ canonMembers ms, m.2.Normal) ∧
      ∃ xs', EncodesEntries E (fun k => k) .value (canonMembers ms) xs' ∧ FTree.jsonMembers lit xs' = FTree.jsonMembers lit xs
  | _, _, .nil _ _, _, _ => by
    rw [canonMembers]
    exact ⟨fun _ h => (nomatch h), fun _ h => (nomatch h), _, .nil _ _, rfl⟩
  | _, _, .cons (k := k) h hs, ht, hf => by
    obtain ⟨a1, a2, x', a3, a4⟩ := canon_encodes h (ht _ List.mem_cons_self) (hf _ List.mem_cons_self)
    obtain ⟨b1, b2, xs', b3, b4⟩ := canonMembers_encodes hs (fun v hv => ht v (List.mem_cons_of_mem _ hv)) fun v hv => hf v (List.mem_cons_of_mem _ hv)
    rw [canonMembers]
    refine ⟨fun v hv => ?_, fun v hv => ?_, _, .cons a3 b3, by simp only [FTree.jsonMembers, a4, b4]⟩ <;>
    rcases List.mem_cons.1 hv with rfl | hv
    · exact a1
    · exact b1 v hv
    · exact a2
    · exact b2 v hv

end

/-- A normal `Value` can be read back. -/
theorem normal_plain {v : Val} (h : v.Normal) : Plain E .value v := by
  induction h with
  | null => exact .vNull
  | bool b => exact .vBool b
  | str s => exact .vStr s
  | numU n => exact .numU n (.inr rfl)
  | numI h => exact .numI (.inr rfl) h
  | seq _ ih => exact .array (.inr rfl) ih
  | map _ ih => exact .object (.inr rfl) ih

theorem normal_floatFree {v : Val} (h : v.Normal) : v.FloatFree := by
  induction h with
  | null => exact .null
  | bool b => exact .bool b
  | str s => exact .str s
  | numU n => exact .numU n
  | numI h => exact .numI _
  | seq _ ih => exact .seq ih
  | map _ ih => exact .map ih

/-! ## A `Value` has one encoding -/

mutual

theorem encodes_value_unique : ∀ {v : Val} {x y : FTree}, Encodes E .value v x → Encodes E .value v y → x = y
  | _, _, _, .numU _ _ _, h => by cases h; rfl
  | _, _, _, .numI _ _ _, h => by cases h; rfl
  | _, _, _, .numF _ _ _, h => by cases h; rfl
  | _, _, _, .vNull, h => by cases h; rfl
  | _, _, _, .vBool _, h => by cases h; rfl
  | _, _, _, .vStr _, h => by cases h; rfl
  | _, _, _, .array _ hs, h => by cases h with | array _ h => rw [encodesAll_value_unique hs h]
  | _, _, _, .object _ hs, h => by cases h with | object _ h => rw [encodesEntries_value_unique hs h]

theorem encodesAll_value_unique : ∀ {vs : List Val} {x y : List FTree}, EncodesAll E .value vs x → EncodesAll E .value vs y → x = y
  | _, _, _, .nil _, h => by cases h; rfl
  | _, _, _, .cons h hs, h' => by cases h' with | cons h1 h2 => rw [encodes_value_unique h h1, encodesAll_value_unique hs h2]

theorem encodesEntries_value_unique : ∀ {ms : List (Bytes × Val)} {x y : List (Bytes × FTree)},
    EncodesEntries E (fun k => k) .value ms x → EncodesEntries E (fun k => k) .value ms y → x = y
  | _, _, _, .nil _ _, h => by cases h; rfl
  | _, _, _, .cons h hs, h' => by cases h' with | cons h1 h2 => rw [encodes_value_unique h h1, encodesEntries_value_unique hs h2]

end

/-! ## Texts with integers only -/

theorem mem_of_lookup {α : Type} {k : Bytes} {v : α} : ∀ {l : List (Bytes × α)}, l.lookup k = some v → (k, v) ∈ l
  | [], h => nomatch h
  | (k', v') :: l, h => by
    rw [List.lookup_cons] at h
    split at h
    · rename_i e; cases h; rw [beq_iff_eq] at e; subst e; exact List.mem_cons_self
    · exact List.mem_cons_of_mem _ (mem_of_lookup h)

theorem lookup_isSome_of_mem {α : Type} {k : Bytes} {v : α} : ∀ {l : List (Bytes × α)}, (l.map Prod.fst).Nodup → (k, v) ∈ l → l.lookup k = some v
  | [], _, h => nomatch h
  | (k', v') :: l, hn, h => by
    rw [List.map_cons, List.nodup_cons] at hn
    rw [List.lookup_cons]
    rcases List.mem_cons.1 h with e | h
    · cases e; simp
    · have : k ≠ k' := fun e => hn.1 (e ▸ List.mem_map.2 ⟨_, h, rfl⟩)
      have hb : (k == k') = false := by simpa using this
      rw [hb]
      exact lookup_isSome_of_mem hn.2 h

mutual

theorem isValue_normal : ∀ {j : Json} {v : Val}, IsValue j v → j.IntsOnly → v.Normal
  | _, _, .null, _ => .null
  | _, _, .bool b, _ => .bool b
  | _, _, .str s, _ => .str s
  | _, _, .num (l := l) (ev := ev) h hv, hj => by
    cases hj with
    | num hf he hr =>
      have hn := numEvent_int hf he
      cases hm : l.minus <;> rw [hm] at hr hn
      · simp only [Bool.false_eq_true, if_false] at hr hn
        rw [if_pos (by unfold u64Max; omega)] at hn
        rw [h] at hn
        cases hn
        cases hv
        exact .numU _
      · simp only [if_true] at hr hn
        rw [if_pos (by unfold u64Max; omega), if_pos (by omega), h] at hn
        cases hn
        cases hv
        exact .numI (by omega)
  | _, _, .arr hs, hj => by cases hj with | arr hj => exact .seq (areValues_normal hs hj)
  | _, _, .obj (kvs := kvs) (m := m) hs hso hm, hj => by
    cases hj with
    | obj hj =>
      refine .map fun x hx => ?_
      have h1 := lookup_isSome_of_mem (sorted_nodup strLt_linear hso) (k := x.1) (v := x.2) hx
      rw [hm, lastOcc] at h1
      have h2 := List.mem_reverse.1 (mem_of_lookup h1)
      exact areMembers_normal hs hj _ h2

theorem areValues_normal : ∀ {js : List Json} {vs : List Val}, AreValues js vs → (∀ j ∈ js, j.IntsOnly) → ∀ v ∈ vs, v.Normal
  | _, _, .nil, _, _, hv => nomatch hv
  | _, _, .cons h hs, hj, v, hv => by
    rcases List.mem_cons.1 hv with rfl | hv
    · exact isValue_normal h (hj _ List.mem_cons_self)
    · exact areValues_normal hs (fun j h => hj j (List.mem_cons_of_mem _ h)) v hv

theorem areMembers_normal : ∀ {ms : List (Bytes × Json)} {kvs : List (Bytes × Val)}, AreMembers ms kvs → (∀ m ∈ ms, m.2.IntsOnly) →
    ∀ x ∈ kvs, x.2.Normal
  | _, _, .nil, _, _, hv => nomatch hv
  | _, _, .cons h hs, hj, v, hv => by
    rcases List.mem_cons.1 hv with rfl | hv
    · exact isValue_normal h (hj _ List.mem_cons_self)
    · exact areMembers_normal hs (fun j h => hj j (List.mem_cons_of_mem _ h)) v hv

end

end Miniserde
