import Verif.Spec.Evolve
import Verif.Props.Equiv
import Verif.Proof.ViaValue

/-!
# Compatible changes of a type
-/

namespace Miniserde

variable {E : Env} {S : Nat → Nat → Prop}

theorem decode_null_none : ∀ {t : Ty}, t.takesNull = false → decode E .null t = none
  | .box t, h => by
    rw [decode, decode_null_none (t := t) (by simpa [Ty.takesNull] using h)]; rfl
  | .opt t, h => by simp [Ty.takesNull] at h
  | .unit, h => by simp [Ty.takesNull] at h
  | .value, h => by simp [Ty.takesNull] at h
  | .bool, _ | .string, _ | .int _ _, _ | .f32, _ | .f64, _ | .number, _ | .array, _ | .object, _ | .tup _ _, _ | .vec _, _ | .arr _ _, _ | .hmap _ _, _
  | .bmap _ _, _ | .strct _, _ | .enm _, _ => by unfold decode; rfl

/-! ## Sequences and maps -/

/-- What is to be shown for a tree. -/
def Evolves (E : Env) (x : Json) (t t' : Ty) : Prop := ∀ v, decode E x t = some v → ∃ v', decode E x t' = some v' ∧ Becomes E t v t' v'

theorem evolve_all {t t' : Ty} : ∀ {xs : List Json}, (∀ x ∈ xs, Evolves E x t t') → ∀ {vs}, decodeAll E xs t = some vs →
    ∃ vs', decodeAll E xs t' = some vs' ∧ BecomeAll E t vs t' vs'
  | [], _, vs, e => by rw [decodeAll] at e; cases e; exact ⟨[], by rw [decodeAll], .nil _ _⟩
  | x :: xs, h, vs, e => by
    rw [decodeAll] at e
    simp only [Option.bind_eq_some_iff, Option.map_eq_some_iff] at e
    obtain ⟨v, h1, us, h2, rfl⟩ := e
    obtain ⟨v', h3, h4⟩ := h x List.mem_cons_self v h1
    obtain ⟨us', h5, h6⟩ := evolve_all (fun x hx => h x (List.mem_cons_of_mem _ hx)) h2
    exact ⟨v' :: us', by rw [decodeAll]; simp [h3, h5], .cons h4 h6⟩

theorem evolve_entries {parse : Bytes → Option Bytes} {t t' : Ty} : ∀ {ms : List (Bytes × Json)}, (∀ m ∈ ms, Evolves E m.2 t t') → ∀ {kvs},
    decodeEntries E parse t ms = some kvs → ∃ kvs', decodeEntries E parse t' ms = some kvs' ∧ BecomeEntries E t kvs t' kvs'
  | [], _, vs, e => by rw [decodeEntries] at e; cases e; exact ⟨[], by rw [decodeEntries], .nil _ _⟩
  | (k, x) :: ms, h, vs, e => by
    rw [decodeEntries] at e
    simp only [Option.bind_eq_some_iff, Option.map_eq_some_iff] at e
    obtain ⟨k', h0, v, h1, us, h2, rfl⟩ := e
    obtain ⟨v', h3, h4⟩ := h (k, x) List.mem_cons_self v h1
    obtain ⟨us', h5, h6⟩ := evolve_entries (fun x hx => h x (List.mem_cons_of_mem _ hx)) h2
    exact ⟨(k', v') :: us', by rw [decodeEntries]; simp [h0, h3, h5], .cons h4 h6⟩

theorem hashInsert_become {t t' : Ty} {k : Bytes} {v v' : Val} (hv : Becomes E t v t' v') : ∀ {ms ms' : List (Bytes × Val)}, BecomeEntries E t ms t' ms' →
    BecomeEntries E t (hashInsert k v ms) t' (hashInsert k v' ms')
  | _, _, .nil _ _ => .cons hv (.nil _ _)
  | _, _, .cons (k := k₁) h hs => by
    unfold hashInsert
    by_cases e : k₁ = k
    · rw [if_pos e, if_pos e]; exact .cons hv hs
    · rw [if_neg e, if_neg e]; exact .cons h (hashInsert_become hv hs)

theorem btreeInsert_become {lt : Bytes → Bytes → Bool} {t t' : Ty} {k : Bytes} {v v' : Val} (hv : Becomes E t v t' v') : ∀ {ms ms' : List (Bytes × Val)},
    BecomeEntries E t ms t' ms' → BecomeEntries E t (btreeInsert lt k v ms) t' (btreeInsert lt k v' ms')
  | _, _, .nil _ _ => .cons hv (.nil _ _)
  | _, _, .cons (k := k₁) h hs => by
    unfold btreeInsert
    by_cases e : lt k k₁ = true
    · rw [if_pos e, if_pos e]; exact .cons hv (.cons h hs)
    · rw [if_neg e, if_neg e]
      by_cases e' : lt k₁ k = true
      · rw [if_pos e', if_pos e']; exact .cons h (btreeInsert_become hv hs)
      · rw [if_neg e', if_neg e']; exact .cons hv hs

theorem fold_become {t t' : Ty} (ins : Bytes → Val → List (Bytes × Val) → List (Bytes × Val))
    (hi : ∀ {k v v' ms ms'}, Becomes E t v t' v' → BecomeEntries E t ms t' ms' → BecomeEntries E t (ins k v ms) t' (ins k v' ms')) :
    ∀ {kvs kvs' : List (Bytes × Val)}, BecomeEntries E t kvs t' kvs' → ∀ {acc acc'}, BecomeEntries E t acc t' acc' →
      BecomeEntries E t (kvs.foldl (fun m kv => ins kv.1 kv.2 m) acc) t' (kvs'.foldl (fun m kv => ins kv.1 kv.2 m) acc')
  | _, _, .nil _ _, _, _, ha => ha
  | _, _, .cons h hs, _, _, ha => fold_become ins hi hs (hi h ha)

/-! ## Structs -/

theorem exists_list {α β : Type} (R : α → β → Prop) : ∀ (l : List α), (∀ a ∈ l, ∃ b, R a b) →
    ∃ bs : List β, bs.length = l.length ∧ ∀ (j : Nat) a, l[j]? = some a → ∃ b, bs[j]? = some b ∧ R a b
  | [], _ => ⟨[], rfl, fun j a h => by simp at h⟩
  | a :: l, h => by
    obtain ⟨b, hb⟩ := h a List.mem_cons_self
    obtain ⟨bs, h1, h2⟩ := exists_list R l fun a ha => h a (List.mem_cons_of_mem _ ha)
    refine ⟨b :: bs, by simp [h1], ?_⟩
    intro j a' hj
    cases j with
    | zero => simp at hj; subst hj; exact ⟨b, by simp, hb⟩
    | succ j => simp at hj; obtain ⟨b', h3, h4⟩ := h2 j a' hj; exact ⟨b', by simpa using h3, h4⟩

theorem lookup_of_mem {fs : List (Bytes × Ty)} (hn : (fs.map Prod.fst).Nodup) {n : Bytes} {t : Ty} (h : (n, t) ∈ fs) : fs.lookup n = some t := by
  obtain ⟨j, hj⟩ := List.getElem?_of_mem h
  obtain ⟨t', h1, h2⟩ := lookup_of_idx ((fieldIdx_some hn (k := n) hj).2 rfl)
  rw [hj] at h1
  simp only [Option.some.injEq, Prod.mk.injEq, true_and] at h1
  rw [h2, h1]

theorem field_of_lookup {fs : List (Bytes × Ty)} {n : Bytes} {t : Ty} (h : fs.lookup n = some t) : (n, t) ∈ fs := by
  induction fs with
  | nil => simp at h
  | cons f fs ih =>
    obtain ⟨m, t'⟩ := f
    rw [lookup_cons'] at h
    split at h
    · rename_i e; cases h; subst e; exact List.mem_cons_self
    · exact List.mem_cons_of_mem _ (ih h)

theorem evolve_strct (hS : StructsWiden E S) {i i' : Nat} (hi : S i i') {ms : List (Bytes × Json)} (ih : ∀ m ∈ ms, ∀ t t', Widens E S t t' → Evolves E m.2 t t') :
    Evolves E (.obj ms) (.strct i) (.strct i') := by
  intro v hv
  obtain ⟨hn, hn', hf⟩ := hS i i' hi
  obtain ⟨vs, rfl, hm, hl, hfs⟩ := (decode_strct E hn ms v).1 hv
  have field : ∀ f ∈ E.fields i', ∃ u', FieldHas E ms f.1 f.2 u' ∧ ∀ (j : Nat) t v, (E.fields i)[j]? = some (f.1, t) → vs[j]? = some v → Becomes E t v f.2 u' := by
    rintro ⟨n, t'⟩ hmem
    obtain ⟨t, h1, h2, h3⟩ := hf n t' hmem
    obtain ⟨j, hj⟩ := List.getElem?_of_mem h1
    obtain ⟨u, h4, h5⟩ := hfs j n t hj
    have uniq : ∀ (j' : Nat) t₁ v, (E.fields i)[j']? = some (n, t₁) → vs[j']? = some v → t₁ = t ∧ v = u := by
      intro j' t₁ v h6 h7
      have e1 := (fieldIdx_some hn (k := n) h6).2 rfl
      have e2 := (fieldIdx_some hn (k := n) hj).2 rfl
      rw [e1] at e2
      simp only [Option.some.injEq] at e2
      subst e2
      rw [h6] at hj; rw [h7] at h4
      simp only [Option.some.injEq, Prod.mk.injEq, true_and] at hj h4
      exact ⟨hj, h4⟩
    unfold FieldHas at h5 ⊢
    cases ho : lastOcc n ms with
    | some x =>
      rw [ho] at h5
      obtain ⟨u', h6, h7⟩ := ih _ (mem_of_lastOcc ho) t t' h2 u h5
      refine ⟨u', by simpa only using h6, ?_⟩
      intro j' t₁ v h8 h9
      obtain ⟨rfl, rfl⟩ := uniq j' t₁ v h8 h9
      exact h7
    | none =>
      rw [ho] at h5
      obtain ⟨⟨t₀, rfl⟩, rfl⟩ := h5
      have h6 := h3 rfl
      cases t' with
      | opt t₁ =>
        refine ⟨.optNone, ⟨⟨t₁, rfl⟩, rfl⟩, ?_⟩
        intro j' t₂ v h8 h9
        obtain ⟨rfl, rfl⟩ := uniq j' t₂ v h8 h9
        exact .optNone
      | _ => cases h6
  obtain ⟨vs', h1, h2⟩ := exists_list _ _ field
  refine ⟨.strct vs', (decode_strct E hn' ms _).2 ⟨vs', rfl, ?_, h1, ?_⟩, .strct hl h1 ?_⟩
  · intro m hmm
    have hfit := hm m hmm
    unfold MemberFits at hfit ⊢
    cases hl' : (E.fields i').lookup m.1 with
    | some t' =>
      obtain ⟨t, h3, h4, -⟩ := hf _ _ (field_of_lookup hl')
      rw [lookup_of_mem hn h3] at hfit
      obtain ⟨v, hv⟩ := hfit
      obtain ⟨v', h5, -⟩ := ih m hmm t t' h4 v hv
      exact ⟨v', h5⟩
    | none =>
      cases hl₀ : (E.fields i).lookup m.1 with
      | some t =>
        rw [hl₀] at hfit
        obtain ⟨v, hv⟩ := hfit
        exact representable_of_decode _ m.2 (Nat.lt_succ_self _) t v hv
      | none => rw [hl₀] at hfit; exact hfit
  · intro j n t hj
    obtain ⟨u, h3, h4, -⟩ := h2 j (n, t) hj
    exact ⟨u, h3, h4⟩
  · intro j j' n t t' v v' hj hj' hv hv'
    obtain ⟨u, h3, -, h5⟩ := h2 j' (n, t') hj'
    rw [hv'] at h3
    cases h3
    exact h5 j t v hj hv

/-! ## All types -/

/-- Types that are not read from scalars. -/
def Ty.compound : Ty → Bool
  | .array | .object | .tup _ _ | .vec _ | .arr _ _ | .hmap _ _ | .bmap _ _ | .strct _ => true
  | _ => false

theorem decodeScalar_compound {j : Json} {t : Ty} (h : t.compound = true) : decodeScalar E j t = none := by
  cases t with
  | array | object | tup _ _ | vec _ | arr _ _ | hmap _ _ | bmap _ _ | strct _ =>
    cases j with
    | num l =>
      simp only [decodeScalar]
      cases numEvent l with
      | ok ev => cases ev <;> rfl
      | err => rfl
      | panic => rfl
    | _ => rfl
  | _ => cases h

theorem seq_inv {j : Json} {t : Ty} {v : Val} (h : decode E j (.vec t) = some v) :
    ∃ xs vs, j = .arr xs ∧ v = .seq vs ∧ decodeAll E xs t = some vs := by
  unfold decode at h
  cases j with
  | arr xs =>
    simp only [Option.map_eq_some_iff] at h
    obtain ⟨vs, h1, rfl⟩ := h
    exact ⟨xs, vs, rfl, rfl, h1⟩
  | obj ms => cases h
  | _ => simp only [decodeScalar_compound (t := .vec t) rfl] at h; cases h

theorem arr_inv {j : Json} {t : Ty} {n : Nat} {v : Val} (h : decode E j (.arr t n) = some v) :
    ∃ xs vs, j = .arr xs ∧ v = .seq vs ∧ xs.length = n ∧ decodeAll E xs t = some vs := by
  unfold decode at h
  cases j with
  | arr xs =>
    simp only at h
    split at h
    · rename_i hn
      simp only [Option.map_eq_some_iff] at h
      obtain ⟨vs, h1, rfl⟩ := h
      exact ⟨xs, vs, rfl, rfl, hn, h1⟩
    · cases h
  | obj ms => cases h
  | _ => simp only [decodeScalar_compound (t := .arr t n) rfl] at h; cases h

theorem tup_inv {j : Json} {a b : Ty} {v : Val} (h : decode E j (.tup a b) = some v) :
    ∃ x y u w, j = .arr [x, y] ∧ v = .seq [u, w] ∧ decode E x a = some u ∧ decode E y b = some w := by
  unfold decode at h
  cases j with
  | arr xs =>
    rcases xs with _ | ⟨x, _ | ⟨y, _ | ⟨z, xs⟩⟩⟩
    · cases h
    · cases h
    · simp only [Option.bind_eq_some_iff, Option.map_eq_some_iff] at h
      obtain ⟨u, h1, w, h2, rfl⟩ := h
      exact ⟨x, y, u, w, rfl, rfl, h1, h2⟩
    · cases h
  | obj ms => cases h
  | _ => simp only [decodeScalar_compound (t := .tup a b) rfl] at h; cases h

theorem hmap_inv {j : Json} {k : Nat} {t : Ty} {v : Val} (h : decode E j (.hmap k t) = some v) :
    ∃ ms kvs, j = .obj ms ∧ v = .map (kvs.foldl (fun m kv => hashInsert kv.1 kv.2 m) []) ∧ decodeEntries E (E.keyParse k) t ms = some kvs := by
  unfold decode at h
  cases j with
  | obj ms =>
    simp only [Option.map_eq_some_iff] at h
    obtain ⟨vs, h1, rfl⟩ := h
    exact ⟨ms, vs, rfl, rfl, h1⟩
  | arr xs => cases h
  | _ => simp only [decodeScalar_compound (t := .hmap k t) rfl] at h; cases h

theorem bmap_inv {j : Json} {k : Nat} {t : Ty} {v : Val} (h : decode E j (.bmap k t) = some v) :
    ∃ ms kvs, j = .obj ms ∧ v = .map (kvs.foldl (fun m kv => btreeInsert (E.keyLt k) kv.1 kv.2 m) []) ∧ decodeEntries E (E.keyParse k) t ms = some kvs := by
  unfold decode at h
  cases j with
  | obj ms =>
    simp only [Option.map_eq_some_iff] at h
    obtain ⟨vs, h1, rfl⟩ := h
    exact ⟨ms, vs, rfl, rfl, h1⟩
  | arr xs => cases h
  | _ => simp only [decodeScalar_compound (t := .bmap k t) rfl] at h; cases h

theorem strct_inv {j : Json} {i : Nat} {v : Val} (h : decode E j (.strct i) = some v) : ∃ ms, j = .obj ms := by
  unfold decode at h
  cases j with
  | obj ms => exact ⟨ms, rfl⟩
  | arr xs => cases h
  | _ => simp only [decodeScalar_compound (t := .strct i) rfl] at h; cases h

theorem enm_inv {j : Json} {i : Nat} {v : Val} (h : decode E j (.enm i) = some v) :
    ∃ s n, j = .str s ∧ v = .enm n ∧ (E.variants i)[n]? = some s := by
  unfold decode at h
  cases j with
  | str s =>
    simp only [decodeScalar, Option.map_eq_some_iff] at h
    obtain ⟨n, h1, rfl⟩ := h
    rw [List.findIdx?_eq_some_iff_getElem] at h1
    obtain ⟨h2, h3, -⟩ := h1
    exact ⟨s, n, rfl, rfl, by rw [List.getElem?_eq_getElem h2, eq_of_beq h3]⟩
  | num l =>
    simp only [decodeScalar] at h
    cases hl : numEvent l with
    | ok ev => rw [hl] at h; cases ev <;> simp [decodeNum] at h
    | err => rw [hl] at h; cases h
    | panic => rw [hl] at h; cases h
  | _ => cases h

theorem pow_mono {m n : Nat} (h : m ≤ n) : (2 : Int) ^ m ≤ 2 ^ n := by
  have : (2 : Nat) ^ m ≤ 2 ^ n := Nat.pow_le_pow_right (by omega) h
  exact_mod_cast this

/-- An integer. -/
theorem int_inv {j : Json} {s : Bool} {n : Nat} {v : Val} (h : decode E j (.int s n) = some v) :
    ∃ l ev z, j = .num l ∧ numEvent l = .ok ev ∧ v = .int z ∧
      ((ev = .negative z ∧ s = true ∧ -2 ^ (n - 1) ≤ z) ∨
       (∃ k : Nat, ev = .nonnegative k ∧ z = k ∧ z ≤ (if s then 2 ^ (n - 1) - 1 else 2 ^ n - 1))) := by
  unfold decode at h
  cases j with
  | num l =>
    simp only [decodeScalar] at h
    cases hl : numEvent l with
    | ok ev =>
      rw [hl] at h
      refine ⟨l, ev, ?_⟩
      cases ev with
      | negative z =>
        simp only [decodeNum] at h
        split at h
        · rename_i hc
          cases h
          exact ⟨z, rfl, hl, rfl, .inl ⟨rfl, hc⟩⟩
        · cases h
      | nonnegative k =>
        cases s <;> simp only [decodeNum] at h <;> split at h <;> cases h <;> rename_i hc <;>
          exact ⟨k, rfl, hl, rfl, .inr ⟨k, rfl, rfl, by simpa using hc⟩⟩
      | _ => simp [decodeNum] at h
    | err => rw [hl] at h; cases h
    | panic => rw [hl] at h; cases h
  | _ => simp [decodeScalar] at h

theorem int_intro {l : NumLit} {ev : Event} {z : Int} {s : Bool} {n : Nat} (hl : numEvent l = .ok ev)
    (h : (ev = .negative z ∧ s = true ∧ -2 ^ (n - 1) ≤ z) ∨ (∃ k : Nat, ev = .nonnegative k ∧ z = k ∧ z ≤ (if s then 2 ^ (n - 1) - 1 else 2 ^ n - 1))) :
    decode E (.num l) (.int s n) = some (.int z) := by
  unfold decode
  simp only [decodeScalar, hl]
  rcases h with ⟨rfl, h1, h2⟩ | ⟨k, rfl, rfl, h2⟩
  · simp only [decodeNum]; rw [if_pos ⟨h1, h2⟩]
  · cases s with
    | false => simp only [decodeNum]; rw [if_pos (by simpa using h2)]
    | true => simp only [decodeNum]; rw [if_pos (by simpa using h2)]

theorem evolve (hS : StructsWiden E S) (n : Nat) : ∀ j : Json, sizeOf j < n → ∀ t t', Widens E S t t' → Evolves E j t t' := by
  induction n with
  | zero => intro j hj; omega
  | succ n ih =>
    intro j hj t t' hw
    have elems : ∀ {xs}, j = .arr xs → ∀ x ∈ xs, ∀ t t', Widens E S t t' → Evolves E x t t' := by
      rintro xs rfl x hx
      have := List.sizeOf_lt_of_mem hx
      simp at hj
      exact ih x (by omega)
    have members : ∀ {ms}, j = .obj ms → ∀ m ∈ ms, ∀ t t', Widens E S t t' → Evolves E m.2 t t' := by
      rintro ms rfl m hm
      have h1 := List.sizeOf_lt_of_mem hm
      have h2 : sizeOf m.2 < sizeOf m := by obtain ⟨a, x⟩ := m; simp
      simp at hj
      exact ih m.2 (by omega)
    induction hw with
    | refl t => exact fun v hv => ⟨v, hv, .same t v⟩
    | @int s m n' h =>
      intro v hv
      obtain ⟨l, ev, z, rfl, hl, rfl, hz⟩ := int_inv hv
      refine ⟨.int z, int_intro hl ?_, .int z⟩
      rcases hz with ⟨h1, h2, h3⟩ | ⟨k, h1, h2, h3⟩
      · exact .inl ⟨h1, h2, by have := pow_mono (show m - 1 ≤ n' - 1 by omega); omega⟩
      · refine .inr ⟨k, h1, h2, ?_⟩
        have h4 := pow_mono (show m - 1 ≤ n' - 1 by omega)
        have h5 := pow_mono h
        cases s <;> simp at h3 ⊢ <;> omega
    | @sign m n' h =>
      intro v hv
      obtain ⟨l, ev, z, rfl, hl, rfl, hz⟩ := int_inv hv
      refine ⟨.int z, int_intro hl ?_, .int z⟩
      rcases hz with ⟨h1, h2, h3⟩ | ⟨k, h1, h2, h3⟩
      · cases h2
      · refine .inr ⟨k, h1, h2, ?_⟩
        have h4 := pow_mono (show m ≤ n' - 1 by omega)
        simp at h3 ⊢
        omega
    | @number s m =>
      intro v hv
      obtain ⟨l, ev, z, rfl, hl, rfl, hz⟩ := int_inv hv
      rcases hz with ⟨h1, -, -⟩ | ⟨k, h1, h2, -⟩
      · subst h1
        exact ⟨.numI z, by unfold decode; simp only [decodeScalar, hl, decodeNum], .numI z⟩
      · subst h1 h2
        exact ⟨.numU k, by unfold decode; simp only [decodeScalar, hl, decodeNum], .numU k⟩
    | @value t h =>
      intro v hv
      refine ⟨v, ?_, .value t v⟩
      rcases h with rfl | rfl | rfl | rfl | rfl | rfl
      · unfold decode at hv ⊢
        cases j with
        | num l =>
          simp only [decodeScalar] at hv
          cases hl : numEvent l with
          | ok ev => rw [hl] at hv; cases ev <;> simp [decodeNum] at hv
          | err => rw [hl] at hv; cases hv
          | panic => rw [hl] at hv; cases hv
        | _ => first | (simp [decodeScalar] at hv; done) | exact hv
      · unfold decode at hv ⊢
        cases j with
        | num l =>
          simp only [decodeScalar] at hv
          cases hl : numEvent l with
          | ok ev => rw [hl] at hv; cases ev <;> simp [decodeNum] at hv
          | err => rw [hl] at hv; cases hv
          | panic => rw [hl] at hv; cases hv
        | _ => first | (simp [decodeScalar] at hv; done) | exact hv
      · unfold decode at hv ⊢
        cases j with
        | num l =>
          simp only [decodeScalar] at hv
          cases hl : numEvent l with
          | ok ev => rw [hl] at hv; cases ev <;> simp [decodeNum] at hv
          | err => rw [hl] at hv; cases hv
          | panic => rw [hl] at hv; cases hv
        | _ => first | (simp [decodeScalar] at hv; done) | exact hv
      · unfold decode at hv ⊢
        cases j with
        | num l =>
          simp only [decodeScalar] at hv ⊢
          cases hl : numEvent l with
          | ok ev => rw [hl] at hv; simp only at hv ⊢; cases ev <;> first | exact hv | (simp [decodeNum] at hv; done)
          | err => rw [hl] at hv; cases hv
          | panic => rw [hl] at hv; cases hv
        | _ => first | (simp [decodeScalar] at hv; done) | exact hv
      · unfold decode at hv ⊢
        cases j with
        | num l =>
          simp only [decodeScalar] at hv
          cases hl : numEvent l with
          | ok ev => rw [hl] at hv; cases ev <;> simp [decodeNum] at hv
          | err => rw [hl] at hv; cases hv
          | panic => rw [hl] at hv; cases hv
        | _ => first | (simp [decodeScalar] at hv; done) | exact hv
      · unfold decode at hv ⊢
        cases j with
        | num l =>
          simp only [decodeScalar] at hv
          cases hl : numEvent l with
          | ok ev => rw [hl] at hv; cases ev <;> simp [decodeNum] at hv
          | err => rw [hl] at hv; cases hv
          | panic => rw [hl] at hv; cases hv
        | _ => first | (simp [decodeScalar] at hv; done) | exact hv
    | @some t t' h hn iht =>
      intro v hv
      obtain ⟨v', h1, h2⟩ := iht v hv
      refine ⟨.optSome v', ?_, .some h2⟩
      rw [decode, h1]
      have : j.isNull = false := by
        cases j <;> first | rfl | (rw [decode_null_none hn] at hv; cases hv)
      simp [this]
    | @opt t t' h iht =>
      intro v hv
      rw [decode] at hv ⊢
      split at hv
      · rename_i hj'
        cases hv
        exact ⟨.optNone, by simp [hj'], .optNone⟩
      · rename_i hj'
        simp only [Option.map_eq_some_iff] at hv
        obtain ⟨u, h1, rfl⟩ := hv
        obtain ⟨u', h2, h3⟩ := iht u h1
        exact ⟨.optSome u', by simp [hj', h2], .optSome h3⟩
    | @box t t' h iht =>
      intro v hv
      obtain ⟨v', h1, h2⟩ := iht v hv
      exact ⟨.box v', by rw [decode, h1]; rfl, .box h2⟩
    | @unbox t t' h iht =>
      intro v hv
      rw [decode] at hv
      simp only [Option.map_eq_some_iff] at hv
      obtain ⟨u, h1, rfl⟩ := hv
      obtain ⟨u', h2, h3⟩ := iht u h1
      exact ⟨u', h2, .unbox h3⟩
    | @vec t t' h _ =>
      intro v hv
      obtain ⟨xs, vs, rfl, rfl, hx⟩ := seq_inv hv
      obtain ⟨vs', h1, h2⟩ := evolve_all (fun x hx => elems rfl x hx t t' h) hx
      exact ⟨.seq vs', by unfold decode; simp [h1], .vec h2⟩
    | @arr t t' m h _ =>
      intro v hv
      obtain ⟨xs, vs, rfl, rfl, hm, hx⟩ := arr_inv hv
      obtain ⟨vs', h1, h2⟩ := evolve_all (fun x hx => elems rfl x hx t t' h) hx
      exact ⟨.seq vs', by unfold decode; simp [h1, hm], .arr h2⟩
    | @arrVec t t' m h _ =>
      intro v hv
      obtain ⟨xs, vs, rfl, rfl, hm, hx⟩ := arr_inv hv
      obtain ⟨vs', h1, h2⟩ := evolve_all (fun x hx => elems rfl x hx t t' h) hx
      exact ⟨.seq vs', by unfold decode; simp [h1], .arrVec h2⟩
    | @tup a b a' b' h h' _ _ =>
      intro v hv
      obtain ⟨x, y, u, w, rfl, rfl, hx, hy⟩ := tup_inv hv
      obtain ⟨u', h1, h2⟩ := elems rfl x (by simp) a a' h u hx
      obtain ⟨w', h3, h4⟩ := elems rfl y (by simp) b b' h' w hy
      exact ⟨.seq [u', w'], by unfold decode; simp [h1, h3], .tup h2 h4⟩
    | @tupVec a b t h h' _ _ =>
      intro v hv
      obtain ⟨x, y, u, w, rfl, rfl, hx, hy⟩ := tup_inv hv
      obtain ⟨u', h1, h2⟩ := elems rfl x (by simp) a t h u hx
      obtain ⟨w', h3, h4⟩ := elems rfl y (by simp) b t h' w hy
      exact ⟨.seq [u', w'], by unfold decode; simp [decodeAll, h1, h3], .tupVec h2 h4⟩
    | @hmap k t t' h _ =>
      intro v hv
      obtain ⟨ms, kvs, rfl, rfl, hx⟩ := hmap_inv hv
      obtain ⟨kvs', h1, h2⟩ := evolve_entries (fun m hm => members rfl m hm t t' h) hx
      exact ⟨_, by unfold decode; simp only [h1, Option.map_some], .hmap (fold_become hashInsert (fun h hs => hashInsert_become h hs) h2 (.nil _ _))⟩
    | @bmap k t t' h _ =>
      intro v hv
      obtain ⟨ms, kvs, rfl, rfl, hx⟩ := bmap_inv hv
      obtain ⟨kvs', h1, h2⟩ := evolve_entries (fun m hm => members rfl m hm t t' h) hx
      exact ⟨_, by unfold decode; simp only [h1, Option.map_some], .bmap (fold_become (btreeInsert (E.keyLt k)) (fun h hs => btreeInsert_become h hs) h2 (.nil _ _))⟩
    | @strct i i' h =>
      intro v hv
      obtain ⟨ms, rfl⟩ := strct_inv hv
      exact evolve_strct hS h (members rfl) v hv
    | @enm i i' h =>
      intro v hv
      obtain ⟨s, m, rfl, rfl, hs⟩ := enm_inv hv
      have hm := h s (List.mem_of_getElem? hs)
      obtain ⟨m', hm'⟩ : ∃ m', (E.variants i').findIdx? (· == s) = some m' := by
        cases e : (E.variants i').findIdx? (· == s) with
        | some m' => exact ⟨m', rfl⟩
        | none => rw [List.findIdx?_eq_none_iff] at e; have := e s hm; simp at this
      refine ⟨.enm m', by unfold decode; simp [decodeScalar, hm'], .enm hs ?_⟩
      rw [List.findIdx?_eq_some_iff_getElem] at hm'
      obtain ⟨h2, h3, -⟩ := hm'
      rw [List.getElem?_eq_getElem h2, eq_of_beq h3]
    | @name i =>
      intro v hv
      obtain ⟨s, m, rfl, rfl, hs⟩ := enm_inv hv
      exact ⟨.str s, by unfold decode; rfl, .name hs⟩

end Miniserde
