import Verif.Proof.Typed

/-!
# Induction on decoding
-/

namespace Miniserde

/-- What has to be shown to conclude `Q t v` for every decoded value `v`. -/
structure DecodeClosed (E : Env) (P : Json → Prop) (Q : Ty → Val → Prop) : Prop where
  elems : ∀ {xs}, P (.arr xs) → ∀ x ∈ xs, P x
  members : ∀ {ms}, P (.obj ms) → ∀ m ∈ ms, P m.2
  scalar : ∀ {j t v}, P j → decodeScalar E j t = some v → Q t v
  none : ∀ t, Q (.opt t) .optNone
  some : ∀ {t v}, Q t v → Q (.opt t) (.optSome v)
  box : ∀ {t v}, Q t v → Q (.box t) (.box v)
  vec : ∀ {t vs}, (∀ v ∈ vs, Q t v) → Q (.vec t) (.seq vs)
  array : ∀ {t vs}, t = .array ∨ t = .value → (∀ v ∈ vs, Q .value v) → Q t (.seq vs)
  arr : ∀ {t n vs}, vs.length = n → (∀ v ∈ vs, Q t v) → Q (.arr t n) (.seq vs)
  tup : ∀ {a b x y}, Q a x → Q b y → Q (.tup a b) (.seq [x, y])
  hmap : ∀ {k t ms kvs}, P (.obj ms) → DecodedEntries E (E.keyParse k) t ms kvs → (∀ kv ∈ kvs, Q t kv.2) →
    Q (.hmap k t) (.map (kvs.foldl (fun m kv => hashInsert kv.1 kv.2 m) []))
  bmap : ∀ {k t ms kvs}, P (.obj ms) → DecodedEntries E (E.keyParse k) t ms kvs → (∀ kv ∈ kvs, Q t kv.2) →
    Q (.bmap k t) (.map (kvs.foldl (fun m kv => btreeInsert (E.keyLt k) kv.1 kv.2 m) []))
  object : ∀ {t ms kvs}, t = .object ∨ t = .value → P (.obj ms) → DecodedEntries E Option.some .value ms kvs → (∀ kv ∈ kvs, Q .value kv.2) →
    Q t (.map (kvs.foldl (fun m kv => btreeInsert strLt kv.1 kv.2 m) []))
  strct : ∀ {i vs}, vs.length = (E.fields i).length →
    (∀ (j : Nat) (f : Bytes × Ty) (v : Val), (E.fields i)[j]? = Option.some f → vs[j]? = Option.some v → Q f.2 v) → Q (.strct i) (.strct vs)

section
variable {E : Env} {P : Json → Prop} {Q : Ty → Val → Prop}

theorem decodeAll_forall {xs : List Json} {t : Ty} (h : ∀ x ∈ xs, ∀ v, decode E x t = some v → Q t v) : ∀ {vs}, decodeAll E xs t = some vs →
    vs.length = xs.length ∧ ∀ v ∈ vs, Q t v := by
  induction xs with
  | nil => intro vs e; rw [decodeAll] at e; cases e; simp
  | cons x xs ih =>
    intro vs e
    rw [decodeAll] at e
    simp only [Option.bind_eq_some_iff, Option.map_eq_some_iff] at e
    obtain ⟨v, h1, us, h2, rfl⟩ := e
    obtain ⟨h3, h4⟩ := ih (fun x hx => h x (List.mem_cons_of_mem _ hx)) h2
    refine ⟨by simp [h3], ?_⟩
    intro u hu
    rcases List.mem_cons.1 hu with rfl | hu
    · exact h x List.mem_cons_self _ h1
    · exact h4 u hu

theorem decodeEntries_forall {parse : Bytes → Option Bytes} {ms : List (Bytes × Json)} {t : Ty}
    (h : ∀ m ∈ ms, ∀ v, decode E m.2 t = some v → Q t v) : ∀ {kvs}, decodeEntries E parse t ms = some kvs → ∀ kv ∈ kvs, Q t kv.2 := by
  induction ms with
  | nil => intro kvs e; rw [decodeEntries] at e; cases e; simp
  | cons m ms ih =>
    intro kvs e
    obtain ⟨k, x⟩ := m
    rw [decodeEntries] at e
    simp only [Option.bind_eq_some_iff, Option.map_eq_some_iff] at e
    obtain ⟨k', -, v, h1, us, h2, rfl⟩ := e
    intro u hu
    rcases List.mem_cons.1 hu with rfl | hu
    · exact h (k, x) List.mem_cons_self _ h1
    · exact ih (fun x hx => h x (List.mem_cons_of_mem _ hx)) h2 u hu

theorem decodeFields_forall {fields : List (Bytes × Ty)} {ms : List (Bytes × Json)}
    (h : ∀ m ∈ ms, ∀ t v, decode E m.2 t = some v → Q t v) : ∀ {ivs}, decodeFields E fields ms = some ivs →
    ∀ iv ∈ ivs, ∃ f, fields[iv.1]? = some f ∧ Q f.2 iv.2 := by
  induction ms with
  | nil => intro kvs e; rw [decodeFields] at e; cases e; simp
  | cons m ms ih =>
    intro ivs e
    obtain ⟨k, x⟩ := m
    have ih' := fun {ivs} => ih (fun x hx => h x (List.mem_cons_of_mem _ hx)) (ivs := ivs)
    rw [decodeFields] at e
    split at e
    · rename_i i hi
      split at e
      · rename_i f hf
        simp only [Option.bind_eq_some_iff, Option.map_eq_some_iff] at e
        obtain ⟨v, h1, us, h2, rfl⟩ := e
        intro u hu
        rcases List.mem_cons.1 hu with rfl | hu
        · exact ⟨f, hf, h (k, x) List.mem_cons_self _ _ h1⟩
        · exact ih' h2 u hu
      · cases e
    · split at e
      · exact ih' e
      · cases e

theorem lookup_mem {α : Type} {i : Nat} {v : α} : ∀ {l : List (Nat × α)}, l.lookup i = some v → (i, v) ∈ l
  | (a, u) :: l, h => by
    rw [List.lookup] at h
    split at h
    · rename_i he
      simp only [beq_iff_eq] at he
      cases h; subst he; exact List.mem_cons_self
    · exact List.mem_cons_of_mem _ (lookup_mem h)

theorem decode_ind (C : DecodeClosed E P Q) (n : Nat) : ∀ j : Json, sizeOf j < n → P j → ∀ t v, decode E j t = some v → Q t v := by
  induction n with
  | zero => intro j hj; omega
  | succ n ih =>
    intro j hj hP t
    induction t with
    | opt t iht =>
      intro v e
      rw [decode] at e
      split at e
      · cases e; exact C.none t
      · simp only [Option.map_eq_some_iff] at e
        obtain ⟨u, h1, rfl⟩ := e
        exact C.some (iht u h1)
    | box t iht =>
      intro v e
      rw [decode] at e
      simp only [Option.map_eq_some_iff] at e
      obtain ⟨u, h1, rfl⟩ := e
      exact C.box (iht u h1)
    | _ =>
      intro v e
      match j with
      | .arr xs =>
        have hx : ∀ x ∈ xs, ∀ t v, decode E x t = some v → Q t v := by
          intro x hx
          have := List.sizeOf_lt_of_mem hx
          simp at hj
          exact ih x (by omega) (C.elems hP x hx)
        unfold decode at e
        first
          | (cases e; done)
          | (simp only [Option.map_eq_some_iff] at e
             obtain ⟨vs, h1, rfl⟩ := e
             have h2 := (decodeAll_forall (Q := Q) (fun x h v => hx x h _ v) h1).2
             first
               | exact C.vec h2
               | exact C.array (.inl rfl) h2
               | exact C.array (.inr rfl) h2)
          | (rename_i t' m _
             by_cases hn : xs.length = m
             · simp only [hn, if_true, Option.map_eq_some_iff] at e
               obtain ⟨vs, h1, rfl⟩ := e
               obtain ⟨h2, h3⟩ := decodeAll_forall (Q := Q) (fun x h v => hx x h _ v) h1
               exact C.arr (h2.trans hn) h3
             · simp only [hn, if_false] at e
               cases e)
          | (rcases xs with _ | ⟨x, _ | ⟨y, _ | ⟨z, xs⟩⟩⟩
             · cases e
             · cases e
             · simp only [Option.bind_eq_some_iff, Option.map_eq_some_iff] at e
               obtain ⟨vx, h1, vy, h2, rfl⟩ := e
               exact C.tup (hx x List.mem_cons_self _ _ h1) (hx y (List.mem_cons_of_mem _ List.mem_cons_self) _ _ h2)
             · cases e)
      | .obj ms =>
        have hx : ∀ m ∈ ms, ∀ t v, decode E m.2 t = some v → Q t v := by
          intro m hm
          have := List.sizeOf_lt_of_mem hm
          have h2 : sizeOf m.2 < sizeOf m := by cases m; simp; omega
          simp at hj
          exact ih m.2 (by omega) (C.members hP m hm)
        unfold decode at e
        first
          | (cases e; done)
          | (simp only [Option.map_eq_some_iff] at e
             obtain ⟨kvs, h1, rfl⟩ := e
             have h2 := decodeEntries_forall (Q := Q) (fun x h v => hx x h _ v) h1
             have h3 := (decodeEntries_spec E _ _ _ _).1 h1
             first
               | exact C.hmap hP h3 h2
               | exact C.bmap hP h3 h2
               | exact C.object (.inl rfl) hP h3 h2
               | exact C.object (.inr rfl) hP h3 h2)
          | (simp only [Option.bind_eq_some_iff, Option.map_eq_some_iff] at e
             obtain ⟨ivs, h1, vs, h2, rfl⟩ := e
             have h3 := decodeFields_forall (Q := Q) hx h1
             obtain ⟨h4, h5⟩ := (fieldValues_spec ivs _ 0 vs).1 h2
             refine C.strct h4 (fun j f v hf hv => ?_)
             obtain ⟨u, h6, h7⟩ := h5 j f.1 f.2 hf
             rw [hv] at h6; cases h6
             rw [Nat.zero_add] at h7
             unfold fieldValue at h7
             cases hw : ivs.reverse.lookup j with
             | some w =>
               rw [hw] at h7
               cases h7
               obtain ⟨f', h8, h9⟩ := h3 _ (List.mem_reverse.1 (lookup_mem hw))
               simp only at h8 h9
               rw [hf] at h8; cases h8
               exact h9
             | none =>
               rw [hw] at h7
               simp only at h7
               obtain ⟨nm, ft⟩ := f
               cases ft <;> first | (cases h7; done) | skip
               cases h7
               exact C.none _)
      | .null => rw [decode_base E (j := .null) rfl (fun _ h => nomatch h) (fun _ h => nomatch h)] at e; exact C.scalar hP e
      | .bool b => rw [decode_base E (j := .bool b) rfl (fun _ h => nomatch h) (fun _ h => nomatch h)] at e; exact C.scalar hP e
      | .str s => rw [decode_base E (j := .str s) rfl (fun _ h => nomatch h) (fun _ h => nomatch h)] at e; exact C.scalar hP e
      | .num l => rw [decode_base E (j := .num l) rfl (fun _ h => nomatch h) (fun _ h => nomatch h)] at e; exact C.scalar hP e

theorem decode_forall (C : DecodeClosed E P Q) {j : Json} (hj : P j) {t : Ty} {v : Val} (h : decode E j t = some v) : Q t v :=
  decode_ind C _ j (Nat.lt_succ_self _) hj t v h

end

end Miniserde
