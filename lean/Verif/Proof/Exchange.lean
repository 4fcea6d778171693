import Verif.Spec.Exchange
import Verif.Proof.Evolve
import Verif.Spec.Encode

/-!
# Programs of different versions exchange documents

The proof follows `Proof/Evolve.lean`.
-/

namespace Miniserde

variable {E : Env} {S : Nat → Nat → Prop}

/-! ## Tidy documents -/

theorem Tidy.vec_inv {t : Ty} {xs : List Json} (h : Tidy E (.vec t) (.arr xs)) : ∀ x ∈ xs, Tidy E t x := by
  cases h with
  | scalar h _ => exact absurd rfl (h _)
  | untyped h => rcases h with h | h | h <;> cases h
  | vec h => exact h

theorem Tidy.arr_inv {t : Ty} {n : Nat} {xs : List Json} (h : Tidy E (.arr t n) (.arr xs)) : ∀ x ∈ xs, Tidy E t x := by
  cases h with
  | scalar h _ => exact absurd rfl (h _)
  | untyped h => rcases h with h | h | h <;> cases h
  | arr h => exact h

theorem Tidy.tup_inv {a b : Ty} {x y : Json} (h : Tidy E (.tup a b) (.arr [x, y])) : Tidy E a x ∧ Tidy E b y := by
  cases h with
  | scalar h _ => exact absurd rfl (h _)
  | untyped h => rcases h with h | h | h <;> cases h
  | tup h h' => exact ⟨h, h'⟩

theorem Tidy.hmap_inv {k : Nat} {t : Ty} {ms : List (Bytes × Json)} (h : Tidy E (.hmap k t) (.obj ms)) : ∀ m ∈ ms, Tidy E t m.2 := by
  cases h with
  | scalar _ h => exact absurd rfl (h _)
  | untyped h => rcases h with h | h | h <;> cases h
  | hmap h => exact h

theorem Tidy.bmap_inv {k : Nat} {t : Ty} {ms : List (Bytes × Json)} (h : Tidy E (.bmap k t) (.obj ms)) : ∀ m ∈ ms, Tidy E t m.2 := by
  cases h with
  | scalar _ h => exact absurd rfl (h _)
  | untyped h => rcases h with h | h | h <;> cases h
  | bmap h => exact h

theorem Tidy.strct_inv {i : Nat} {ms : List (Bytes × Json)} (h : Tidy E (.strct i) (.obj ms)) :
    (∀ m ∈ ms, m.1 ∈ (E.fields i).map Prod.fst) ∧ ∀ m ∈ ms, ∀ t, (m.1, t) ∈ E.fields i → Tidy E t m.2 := by
  cases h with
  | scalar _ h => exact absurd rfl (h _)
  | untyped h => rcases h with h | h | h <;> cases h
  | strct hk h => exact ⟨hk, h⟩

theorem Tidy.opt_inv {t : Ty} {j : Json} (h : Tidy E (.opt t) j) : Tidy E t j := by
  cases h with
  | scalar h h' => exact .scalar h h'
  | untyped h => rcases h with h | h | h <;> cases h
  | opt h => exact h

theorem Tidy.box_inv {t : Ty} {j : Json} (h : Tidy E (.box t) j) : Tidy E t j := by
  cases h with
  | scalar h h' => exact .scalar h h'
  | untyped h => rcases h with h | h | h <;> cases h
  | box h => exact h

/-! ## Sequences and maps -/

/-- What is to be shown for a tree. -/
def Grow (E : Env) (x : Json) (t t' : Ty) : Prop := ∀ v, decode E x t = some v → ∃ v', decode E x t' = some v' ∧ Grows E t v t' v'

theorem grow_all {t t' : Ty} : ∀ {xs : List Json}, (∀ x ∈ xs, Grow E x t t') → ∀ {vs}, decodeAll E xs t = some vs →
    ∃ vs', decodeAll E xs t' = some vs' ∧ GrowAll E t vs t' vs'
  | [], _, vs, e => by rw [decodeAll] at e; cases e; exact ⟨[], by rw [decodeAll], .nil _ _⟩
  | x :: xs, h, vs, e => by
    rw [decodeAll] at e
    simp only [Option.bind_eq_some_iff, Option.map_eq_some_iff] at e
    obtain ⟨v, h1, us, h2, rfl⟩ := e
    obtain ⟨v', h3, h4⟩ := h x List.mem_cons_self v h1
    obtain ⟨us', h5, h6⟩ := grow_all (fun x hx => h x (List.mem_cons_of_mem _ hx)) h2
    exact ⟨v' :: us', by rw [decodeAll]; simp [h3, h5], .cons h4 h6⟩

theorem grow_entries {parse : Bytes → Option Bytes} {t t' : Ty} : ∀ {ms : List (Bytes × Json)}, (∀ m ∈ ms, Grow E m.2 t t') → ∀ {kvs},
    decodeEntries E parse t ms = some kvs → ∃ kvs', decodeEntries E parse t' ms = some kvs' ∧ GrowEntries E t kvs t' kvs'
  | [], _, vs, e => by rw [decodeEntries] at e; cases e; exact ⟨[], by rw [decodeEntries], .nil _ _⟩
  | (k, x) :: ms, h, vs, e => by
    rw [decodeEntries] at e
    simp only [Option.bind_eq_some_iff, Option.map_eq_some_iff] at e
    obtain ⟨k', h0, v, h1, us, h2, rfl⟩ := e
    obtain ⟨v', h3, h4⟩ := h (k, x) List.mem_cons_self v h1
    obtain ⟨us', h5, h6⟩ := grow_entries (fun x hx => h x (List.mem_cons_of_mem _ hx)) h2
    exact ⟨(k', v') :: us', by rw [decodeEntries]; simp [h0, h3, h5], .cons h4 h6⟩

theorem hashInsert_grow {t t' : Ty} {k : Bytes} {v v' : Val} (hv : Grows E t v t' v') : ∀ {ms ms' : List (Bytes × Val)}, GrowEntries E t ms t' ms' →
    GrowEntries E t (hashInsert k v ms) t' (hashInsert k v' ms')
  | _, _, .nil _ _ => .cons hv (.nil _ _)
  | _, _, .cons (k := k₁) h hs => by
    unfold hashInsert
    by_cases e : k₁ = k
    · rw [if_pos e, if_pos e]; exact .cons hv hs
    · rw [if_neg e, if_neg e]; exact .cons h (hashInsert_grow hv hs)

theorem btreeInsert_grow {lt : Bytes → Bytes → Bool} {t t' : Ty} {k : Bytes} {v v' : Val} (hv : Grows E t v t' v') : ∀ {ms ms' : List (Bytes × Val)},
    GrowEntries E t ms t' ms' → GrowEntries E t (btreeInsert lt k v ms) t' (btreeInsert lt k v' ms')
  | _, _, .nil _ _ => .cons hv (.nil _ _)
  | _, _, .cons (k := k₁) h hs => by
    unfold btreeInsert
    by_cases e : lt k k₁ = true
    · rw [if_pos e, if_pos e]; exact .cons hv (.cons h hs)
    · rw [if_neg e, if_neg e]
      by_cases e' : lt k₁ k = true
      · rw [if_pos e', if_pos e']; exact .cons h (btreeInsert_grow hv hs)
      · rw [if_neg e', if_neg e']; exact .cons hv hs

theorem fold_grow {t t' : Ty} (ins : Bytes → Val → List (Bytes × Val) → List (Bytes × Val))
    (hi : ∀ {k v v' ms ms'}, Grows E t v t' v' → GrowEntries E t ms t' ms' → GrowEntries E t (ins k v ms) t' (ins k v' ms')) :
    ∀ {kvs kvs' : List (Bytes × Val)}, GrowEntries E t kvs t' kvs' → ∀ {acc acc'}, GrowEntries E t acc t' acc' →
      GrowEntries E t (kvs.foldl (fun m kv => ins kv.1 kv.2 m) acc) t' (kvs'.foldl (fun m kv => ins kv.1 kv.2 m) acc')
  | _, _, .nil _ _, _, _, ha => ha
  | _, _, .cons h hs, _, _, ha => fold_grow ins hi hs (hi h ha)

theorem grow_strct (hS : StructsGrow E S) {i i' : Nat} (hi : S i i') {ms : List (Bytes × Json)} (ht : Tidy E (.strct i) (.obj ms))
    (ih : ∀ m ∈ ms, ∀ t t', Widens E S t t' → Tidy E t m.2 → Grow E m.2 t t') : Grow E (.obj ms) (.strct i) (.strct i') := by
  intro v hv
  obtain ⟨hk, htm⟩ := ht.strct_inv
  obtain ⟨hn, hn', hf⟩ := hS i i' hi
  obtain ⟨vs, rfl, hm, hl, hfs⟩ := (decode_strct E hn ms v).1 hv
  have field : ∀ f ∈ E.fields i', ∃ u', FieldHas E ms f.1 f.2 u' ∧ ∀ (j : Nat) t v, (E.fields i)[j]? = some (f.1, t) → vs[j]? = some v → Grows E t v f.2 u' := by
    rintro ⟨n, t'⟩ hmem
    rcases hf n t' hmem with ⟨t, h1, h2, h3⟩ | ⟨hnew, ho⟩
    case inr =>
      cases t' with
      | opt t₁ =>
        refine ⟨.optNone, ?_, ?_⟩
        · have : lastOcc n ms = none := by
            cases hl : lastOcc n ms with
            | none => rfl
            | some x => exact absurd (hk _ (mem_of_lastOcc hl)) hnew
          unfold FieldHas
          rw [this]
          exact ⟨⟨t₁, rfl⟩, rfl⟩
        · intro j t v hj
          exact absurd (List.mem_map.2 ⟨_, List.mem_of_getElem? hj, rfl⟩) hnew
      | _ => cases ho
    obtain ⟨j, hj⟩ := List.getElem?_of_mem h1
    obtain ⟨u, h4, h5⟩ := hfs j n t hj
    have uniq : ∀ (j' : Nat) t₁ v, (E.fields i)[j']? = some (n, t₁) → vs[j']? = some v → t₁ = t ∧ v = u := by
      intro j' t₁ v h6 h7
      have e1 := (fieldIdx_some hn (k := n) h6).2 rfl
      have e2 := (fieldIdx_some hn (k := n) hj).2 rfl
      rw [e1] at e2
      simp only [Option.some.injEq] at e2
      subst e2
      rw [h6] at hj; rw [h7] at h4
      simp only [Option.some.injEq, Prod.mk.injEq, true_and] at hj h4
      exact ⟨hj, h4⟩
    unfold FieldHas at h5 ⊢
    cases ho : lastOcc n ms with
    | some x =>
      rw [ho] at h5
      obtain ⟨u', h6, h7⟩ := ih _ (mem_of_lastOcc ho) t t' h2 (htm _ (mem_of_lastOcc ho) t h1) u h5
      refine ⟨u', by simpa only using h6, ?_⟩
      intro j' t₁ v h8 h9
      obtain ⟨rfl, rfl⟩ := uniq j' t₁ v h8 h9
      exact h7
    | none =>
      rw [ho] at h5
      obtain ⟨⟨t₀, rfl⟩, rfl⟩ := h5
      have h6 := h3 rfl
      cases t' with
      | opt t₁ =>
        refine ⟨.optNone, ⟨⟨t₁, rfl⟩, rfl⟩, ?_⟩
        intro j' t₂ v h8 h9
        obtain ⟨rfl, rfl⟩ := uniq j' t₂ v h8 h9
        exact .optNone
      | _ => cases h6
  obtain ⟨vs', h1, h2⟩ := exists_list _ _ field
  refine ⟨.strct vs', (decode_strct E hn' ms _).2 ⟨vs', rfl, ?_, h1, ?_⟩, .strct hl h1 ?_ ?_⟩
  · intro m hmm
    have hfit := hm m hmm
    unfold MemberFits at hfit ⊢
    cases hl' : (E.fields i').lookup m.1 with
    | some t' =>
      rcases hf _ _ (field_of_lookup hl') with ⟨t, h3, h4, -⟩ | ⟨hnew, -⟩
      · rw [lookup_of_mem hn h3] at hfit
        obtain ⟨v, hv⟩ := hfit
        obtain ⟨v', h5, -⟩ := ih m hmm t t' h4 (htm m hmm t h3) v hv
        exact ⟨v', h5⟩
      · exact absurd (hk m hmm) hnew
    | none =>
      cases hl₀ : (E.fields i).lookup m.1 with
      | some t =>
        rw [hl₀] at hfit
        obtain ⟨v, hv⟩ := hfit
        exact representable_of_decode _ m.2 (Nat.lt_succ_self _) t v hv
      | none => rw [hl₀] at hfit; exact hfit
  · intro j n t hj
    obtain ⟨u, h3, h4, -⟩ := h2 j (n, t) hj
    exact ⟨u, h3, h4⟩
  · intro j j' n t t' v v' hj hj' hv hv'
    obtain ⟨u, h3, -, h5⟩ := h2 j' (n, t') hj'
    rw [hv'] at h3
    cases h3
    exact h5 j t v hj hv
  · intro j' n t' hj' hnew
    obtain ⟨u, h3, h4, -⟩ := h2 j' (n, t') hj'
    unfold FieldHas at h4
    cases ho : lastOcc n ms with
    | some x => exact absurd (hk _ (mem_of_lastOcc ho)) hnew
    | none =>
      rw [ho] at h4
      rw [h3, h4.2]

/-! ## All types -/

theorem grow (hS : StructsGrow E S) (n : Nat) : ∀ j : Json, sizeOf j < n → ∀ t t', Widens E S t t' → Tidy E t j → Grow E j t t' := by
  induction n with
  | zero => intro j hj; omega
  | succ n ih =>
    intro j hj t t' hw
    have elems : ∀ {xs}, j = .arr xs → ∀ x ∈ xs, ∀ t t', Widens E S t t' → Tidy E t x → Grow E x t t' := by
      rintro xs rfl x hx
      have := List.sizeOf_lt_of_mem hx
      simp at hj
      exact ih x (by omega)
    have members : ∀ {ms}, j = .obj ms → ∀ m ∈ ms, ∀ t t', Widens E S t t' → Tidy E t m.2 → Grow E m.2 t t' := by
      rintro ms rfl m hm
      have h1 := List.sizeOf_lt_of_mem hm
      have h2 : sizeOf m.2 < sizeOf m := by obtain ⟨a, x⟩ := m; simp
      simp at hj
      exact ih m.2 (by omega)
    induction hw with
    | refl t => exact fun _ v hv => ⟨v, hv, .same t v⟩
    | @int s m n' h =>
      intro ht v hv
      obtain ⟨l, ev, z, rfl, hl, rfl, hz⟩ := int_inv hv
      refine ⟨.int z, int_intro hl ?_, .int z⟩
      rcases hz with ⟨h1, h2, h3⟩ | ⟨k, h1, h2, h3⟩
      · exact .inl ⟨h1, h2, by have := pow_mono (show m - 1 ≤ n' - 1 by omega); omega⟩
      · refine .inr ⟨k, h1, h2, ?_⟩
        have h4 := pow_mono (show m - 1 ≤ n' - 1 by omega)
        have h5 := pow_mono h
        cases s <;> simp at h3 ⊢ <;> omega
    | @sign m n' h =>
      intro ht v hv
      obtain ⟨l, ev, z, rfl, hl, rfl, hz⟩ := int_inv hv
      refine ⟨.int z, int_intro hl ?_, .int z⟩
      rcases hz with ⟨h1, h2, h3⟩ | ⟨k, h1, h2, h3⟩
      · cases h2
      · refine .inr ⟨k, h1, h2, ?_⟩
        have h4 := pow_mono (show m ≤ n' - 1 by omega)
        simp at h3 ⊢
        omega
    | @number s m =>
      intro ht v hv
      obtain ⟨l, ev, z, rfl, hl, rfl, hz⟩ := int_inv hv
      rcases hz with ⟨h1, -, -⟩ | ⟨k, h1, h2, -⟩
      · subst h1
        exact ⟨.numI z, by unfold decode; simp only [decodeScalar, hl, decodeNum], .numI z⟩
      · subst h1 h2
        exact ⟨.numU k, by unfold decode; simp only [decodeScalar, hl, decodeNum], .numU k⟩
    | @value t h =>
      intro ht v hv
      refine ⟨v, ?_, .value t v⟩
      rcases h with rfl | rfl | rfl | rfl | rfl | rfl
      · unfold decode at hv ⊢
        cases j with
        | num l =>
          simp only [decodeScalar] at hv
          cases hl : numEvent l with
          | ok ev => rw [hl] at hv; cases ev <;> simp [decodeNum] at hv
          | err => rw [hl] at hv; cases hv
          | panic => rw [hl] at hv; cases hv
        | _ => first | (simp [decodeScalar] at hv; done) | exact hv
      · unfold decode at hv ⊢
        cases j with
        | num l =>
          simp only [decodeScalar] at hv
          cases hl : numEvent l with
          | ok ev => rw [hl] at hv; cases ev <;> simp [decodeNum] at hv
          | err => rw [hl] at hv; cases hv
          | panic => rw [hl] at hv; cases hv
        | _ => first | (simp [decodeScalar] at hv; done) | exact hv
      · unfold decode at hv ⊢
        cases j with
        | num l =>
          simp only [decodeScalar] at hv
          cases hl : numEvent l with
          | ok ev => rw [hl] at hv; cases ev <;> simp [decodeNum] at hv
          | err => rw [hl] at hv; cases hv
          | panic => rw [hl] at hv; cases hv
        | _ => first | (simp [decodeScalar] at hv; done) | exact hv
      · unfold decode at hv ⊢
        cases j with
        | num l =>
          simp only [decodeScalar] at hv ⊢
          cases hl : numEvent l with
          | ok ev => rw [hl] at hv; simp only at hv ⊢; cases ev <;> first | exact hv | (simp [decodeNum] at hv; done)
          | err => rw [hl] at hv; cases hv
          | panic => rw [hl] at hv; cases hv
        | _ => first | (simp [decodeScalar] at hv; done) | exact hv
      · unfold decode at hv ⊢
        cases j with
        | num l =>
          simp only [decodeScalar] at hv
          cases hl : numEvent l with
          | ok ev => rw [hl] at hv; cases ev <;> simp [decodeNum] at hv
          | err => rw [hl] at hv; cases hv
          | panic => rw [hl] at hv; cases hv
        | _ => first | (simp [decodeScalar] at hv; done) | exact hv
      · unfold decode at hv ⊢
        cases j with
        | num l =>
          simp only [decodeScalar] at hv
          cases hl : numEvent l with
          | ok ev => rw [hl] at hv; cases ev <;> simp [decodeNum] at hv
          | err => rw [hl] at hv; cases hv
          | panic => rw [hl] at hv; cases hv
        | _ => first | (simp [decodeScalar] at hv; done) | exact hv
    | @some t t' h hn iht =>
      intro ht v hv
      obtain ⟨v', h1, h2⟩ := iht ht v hv
      refine ⟨.optSome v', ?_, .some h2⟩
      rw [decode, h1]
      have : j.isNull = false := by
        cases j <;> first | rfl | (rw [decode_null_none hn] at hv; cases hv)
      simp [this]
    | @opt t t' h iht =>
      intro ht v hv
      rw [decode] at hv ⊢
      split at hv
      · rename_i hj'
        cases hv
        exact ⟨.optNone, by simp [hj'], .optNone⟩
      · rename_i hj'
        simp only [Option.map_eq_some_iff] at hv
        obtain ⟨u, h1, rfl⟩ := hv
        obtain ⟨u', h2, h3⟩ := iht ht.opt_inv u h1
        exact ⟨.optSome u', by simp [hj', h2], .optSome h3⟩
    | @box t t' h iht =>
      intro ht v hv
      obtain ⟨v', h1, h2⟩ := iht ht v hv
      exact ⟨.box v', by rw [decode, h1]; rfl, .box h2⟩
    | @unbox t t' h iht =>
      intro ht v hv
      rw [decode] at hv
      simp only [Option.map_eq_some_iff] at hv
      obtain ⟨u, h1, rfl⟩ := hv
      obtain ⟨u', h2, h3⟩ := iht ht.box_inv u h1
      exact ⟨u', h2, .unbox h3⟩
    | @vec t t' h _ =>
      intro ht v hv
      obtain ⟨xs, vs, rfl, rfl, hx⟩ := seq_inv hv
      obtain ⟨vs', h1, h2⟩ := grow_all (fun x hx => elems rfl x hx t t' h (ht.vec_inv x hx)) hx
      exact ⟨.seq vs', by unfold decode; simp [h1], .vec h2⟩
    | @arr t t' m h _ =>
      intro ht v hv
      obtain ⟨xs, vs, rfl, rfl, hm, hx⟩ := arr_inv hv
      obtain ⟨vs', h1, h2⟩ := grow_all (fun x hx => elems rfl x hx t t' h (ht.arr_inv x hx)) hx
      exact ⟨.seq vs', by unfold decode; simp [h1, hm], .arr h2⟩
    | @arrVec t t' m h _ =>
      intro ht v hv
      obtain ⟨xs, vs, rfl, rfl, hm, hx⟩ := arr_inv hv
      obtain ⟨vs', h1, h2⟩ := grow_all (fun x hx => elems rfl x hx t t' h (ht.arr_inv x hx)) hx
      exact ⟨.seq vs', by unfold decode; simp [h1], .arrVec h2⟩
    | @tup a b a' b' h h' _ _ =>
      intro ht v hv
      obtain ⟨x, y, u, w, rfl, rfl, hx, hy⟩ := tup_inv hv
      obtain ⟨u', h1, h2⟩ := elems rfl x (by simp) a a' h ht.tup_inv.1 u hx
      obtain ⟨w', h3, h4⟩ := elems rfl y (by simp) b b' h' ht.tup_inv.2 w hy
      exact ⟨.seq [u', w'], by unfold decode; simp [h1, h3], .tup h2 h4⟩
    | @tupVec a b t h h' _ _ =>
      intro ht v hv
      obtain ⟨x, y, u, w, rfl, rfl, hx, hy⟩ := tup_inv hv
      obtain ⟨u', h1, h2⟩ := elems rfl x (by simp) a t h ht.tup_inv.1 u hx
      obtain ⟨w', h3, h4⟩ := elems rfl y (by simp) b t h' ht.tup_inv.2 w hy
      exact ⟨.seq [u', w'], by unfold decode; simp [decodeAll, h1, h3], .tupVec h2 h4⟩
    | @hmap k t t' h _ =>
      intro ht v hv
      obtain ⟨ms, kvs, rfl, rfl, hx⟩ := hmap_inv hv
      obtain ⟨kvs', h1, h2⟩ := grow_entries (fun m hm => members rfl m hm t t' h (ht.hmap_inv m hm)) hx
      exact ⟨_, by unfold decode; simp only [h1, Option.map_some], .hmap (fold_grow hashInsert (fun h hs => hashInsert_grow h hs) h2 (.nil _ _))⟩
    | @bmap k t t' h _ =>
      intro ht v hv
      obtain ⟨ms, kvs, rfl, rfl, hx⟩ := bmap_inv hv
      obtain ⟨kvs', h1, h2⟩ := grow_entries (fun m hm => members rfl m hm t t' h (ht.bmap_inv m hm)) hx
      exact ⟨_, by unfold decode; simp only [h1, Option.map_some], .bmap (fold_grow (btreeInsert (E.keyLt k)) (fun h hs => btreeInsert_grow h hs) h2 (.nil _ _))⟩
    | @strct i i' h =>
      intro ht v hv
      obtain ⟨ms, rfl⟩ := strct_inv hv
      exact grow_strct hS h ht (members rfl) v hv
    | @enm i i' h =>
      intro ht v hv
      obtain ⟨s, m, rfl, rfl, hs⟩ := enm_inv hv
      have hm := h s (List.mem_of_getElem? hs)
      obtain ⟨m', hm'⟩ : ∃ m', (E.variants i').findIdx? (· == s) = some m' := by
        cases e : (E.variants i').findIdx? (· == s) with
        | some m' => exact ⟨m', rfl⟩
        | none => rw [List.findIdx?_eq_none_iff] at e; have := e s hm; simp at this
      refine ⟨.enm m', by unfold decode; simp [decodeScalar, hm'], .enm hs ?_⟩
      rw [List.findIdx?_eq_some_iff_getElem] at hm'
      obtain ⟨h2, h3, -⟩ := hm'
      rw [List.getElem?_eq_getElem h2, eq_of_beq h3]
    | @name i =>
      intro ht v hv
      obtain ⟨s, m, rfl, rfl, hs⟩ := enm_inv hv
      exact ⟨.str s, by unfold decode; rfl, .name hs⟩

/-! ## What `to_string` writes -/

section
variable {lit : F64 → NumLit}

mutual

/-- The encodings of a value have no unknown members. -/
theorem Encodes.tidy (hn : ∀ i, ((E.fields i).map Prod.fst).Nodup) : ∀ {t : Ty} {v : Val} {x : FTree}, Encodes E t v x → Tidy E t (x.json lit)
  | _, _, _, .unit => .scalar (fun _ h => nomatch h) (fun _ h => nomatch h)
  | _, _, _, .bool _ => .scalar (fun _ h => nomatch h) (fun _ h => nomatch h)
  | _, _, _, .string _ => .scalar (fun _ h => nomatch h) (fun _ h => nomatch h)
  | _, _, _, .unsigned _ _ => .scalar (fun _ h => nomatch h) (fun _ h => nomatch h)
  | _, _, _, .signed _ _ => .scalar (fun _ h => nomatch h) (fun _ h => nomatch h)
  | _, _, _, .f32 x => by
    rw [FTree.json]
    split <;> exact .scalar (fun _ h => nomatch h) (fun _ h => nomatch h)
  | _, _, _, .f64 x => by
    rw [FTree.json]
    split <;> exact .scalar (fun _ h => nomatch h) (fun _ h => nomatch h)
  | _, _, _, .numU _ _ _ => .scalar (fun _ h => nomatch h) (fun _ h => nomatch h)
  | _, _, _, .numI _ _ _ => .scalar (fun _ h => nomatch h) (fun _ h => nomatch h)
  | _, _, _, .numF _ x _ => by
    rw [FTree.json]
    split <;> exact .scalar (fun _ h => nomatch h) (fun _ h => nomatch h)
  | _, _, _, .vNull => .untyped (by simp)
  | _, _, _, .vBool _ => .untyped (by simp)
  | _, _, _, .vStr _ => .untyped (by simp)
  | _, _, _, .array ht _ => .untyped (by rcases ht with h | h <;> simp [h])
  | _, _, _, .object ht _ => .untyped (by rcases ht with h | h <;> simp [h])
  | _, _, _, .box h => .box (Encodes.tidy hn h)
  | _, _, _, .none _ => .scalar (fun _ h => nomatch h) (fun _ h => nomatch h)
  | _, _, _, .some h => .opt (Encodes.tidy hn h)
  | _, _, _, .tup h h' => .tup (Encodes.tidy hn h) (Encodes.tidy hn h')
  | _, _, _, .vec h => .vec (EncodesAll.tidy hn h)
  | _, _, _, .arr h => .arr (EncodesAll.tidy hn h)
  | _, _, _, .hmap _ h => .hmap (EncodesEntries.tidy hn h)
  | _, _, _, .bmap h => .bmap (EncodesEntries.tidy hn h)
  | _, _, _, .strct (i := i) h => .strct (fun m hm => (EncodesFields.tidy hn h (hn i) m hm).1) (fun m hm => (EncodesFields.tidy hn h (hn i) m hm).2)
  | _, _, _, .enm _ => .scalar (fun _ h => nomatch h) (fun _ h => nomatch h)

theorem EncodesAll.tidy (hn : ∀ i, ((E.fields i).map Prod.fst).Nodup) : ∀ {t : Ty} {vs : List Val} {xs : List FTree}, EncodesAll E t vs xs →
    ∀ x ∈ FTree.jsons lit xs, Tidy E t x
  | _, _, _, .nil _ => by intro x hx; cases hx
  | _, _, _, .cons h hs => by
    intro x hx
    rw [FTree.jsons, List.mem_cons] at hx
    rcases hx with rfl | hx
    · exact Encodes.tidy hn h
    · exact EncodesAll.tidy hn hs x hx

theorem EncodesEntries.tidy (hn : ∀ i, ((E.fields i).map Prod.fst).Nodup) : ∀ {f : Bytes → Bytes} {t : Ty} {ms : List (Bytes × Val)} {xs : List (Bytes × FTree)},
    EncodesEntries E f t ms xs → ∀ m ∈ FTree.jsonMembers lit xs, Tidy E t m.2
  | _, _, _, _, .nil _ _ => by intro x hx; cases hx
  | _, _, _, _, .cons h hs => by
    intro x hx
    rw [FTree.jsonMembers, List.mem_cons] at hx
    rcases hx with rfl | hx
    · exact Encodes.tidy hn h
    · exact EncodesEntries.tidy hn hs x hx

theorem EncodesFields.tidy (hn : ∀ i, ((E.fields i).map Prod.fst).Nodup) : ∀ {fs : List (Bytes × Ty)} {vs : List Val} {xs : List (Bytes × FTree)},
    EncodesFields E fs vs xs → (fs.map Prod.fst).Nodup → ∀ m ∈ FTree.jsonMembers lit xs, m.1 ∈ fs.map Prod.fst ∧ ∀ t, (m.1, t) ∈ fs → Tidy E t m.2
  | _, _, _, .nil, _ => by intro x hx; cases hx
  | _, _, _, .cons (name := name) (t := t) (fs := fs) h hs, hd => by
    intro x hx
    rw [List.map_cons, List.nodup_cons] at hd
    rw [FTree.jsonMembers, List.mem_cons] at hx
    rcases hx with rfl | hx
    · refine ⟨by simp, ?_⟩
      intro t' ht'
      rw [List.mem_cons] at ht'
      rcases ht' with e | ht'
      · cases e
        exact Encodes.tidy hn h
      · exact absurd (List.mem_map.2 ⟨_, ht', rfl⟩) hd.1
    · obtain ⟨h1, h2⟩ := EncodesFields.tidy hn hs hd.2 x hx
      refine ⟨by rw [List.map_cons]; exact List.mem_cons_of_mem _ h1, ?_⟩
      intro t' ht'
      rw [List.mem_cons] at ht'
      rcases ht' with e | ht'
      · simp only [Prod.mk.injEq] at e
        rw [e.1] at h1
        exact absurd h1 hd.1
      · exact h2 t' ht'

end

end

end Miniserde
