import Verif.Spec.ViaValue
import Verif.Proof.Reparse
import Verif.Props.Equiv

/-!
# Decoding depends only on the `Value`
-/

namespace Miniserde
variable {E : Env}

theorem mem_of_lastOcc {α : Type} {k : Bytes} {x : α} {ms : List (Bytes × α)} (h : lastOcc k ms = some x) : (k, x) ∈ ms :=
  List.mem_reverse.1 (mem_of_lookup h)

/-! ## Members and their values -/

theorem members_lastOcc {k : Bytes} : ∀ {ms : List (Bytes × Json)} {kvs : List (Bytes × Val)}, AreMembers ms kvs →
    (∀ x, lastOcc k ms = some x → ∃ w, lastOcc k kvs = some w ∧ IsValue x w) ∧
    (∀ w, lastOcc k kvs = some w → ∃ x, lastOcc k ms = some x ∧ IsValue x w)
  | _, _, .nil => by simp [lastOcc]
  | _, _, .cons (k := a) (x := x) (ms := ms) (v := v) (kvs := kvs) h hs => by
    obtain ⟨i1, i2⟩ := members_lastOcc (k := k) hs
    rw [lastOcc_cons, lastOcc_cons]
    cases h1 : lastOcc k ms with
    | some y =>
      obtain ⟨w, h2, h3⟩ := i1 y h1
      rw [h2]
      simp only [Option.some_or, Option.some.injEq, exists_eq_left']
      exact ⟨fun x e => e ▸ h3, fun x e => e ▸ h3⟩
    | none =>
      have h2 : lastOcc k kvs = none := by
        cases e : lastOcc k kvs with
        | none => rfl
        | some w => obtain ⟨x, h3, -⟩ := i2 w e; rw [h1] at h3; cases h3
      rw [h2]
      simp only [Option.none_or]
      split
      · simp only [Option.some.injEq, exists_eq_left']
        exact ⟨fun x e => e ▸ h, fun x e => e ▸ h⟩
      · simp

theorem same_members {ms ms' : List (Bytes × Json)} {u : Val} (h : IsValue (.obj ms) u) (h' : IsValue (.obj ms') u) (k : Bytes) :
    (∀ x, lastOcc k ms = some x → ∃ x' w, lastOcc k ms' = some x' ∧ IsValue x w ∧ IsValue x' w) ∧
    (∀ x', lastOcc k ms' = some x' → ∃ x w, lastOcc k ms = some x ∧ IsValue x w ∧ IsValue x' w) := by
  cases h with
  | obj a1 a2 a3 =>
    cases h' with
    | obj b1 b2 b3 =>
      obtain ⟨p1, p2⟩ := members_lastOcc (k := k) a1
      obtain ⟨q1, q2⟩ := members_lastOcc (k := k) b1
      have e := (a3 k).symm.trans (b3 k)
      constructor
      · intro x hx
        obtain ⟨w, hw, iw⟩ := p1 x hx
        obtain ⟨x', hx', iw'⟩ := q2 w (e ▸ hw)
        exact ⟨x', w, hx', iw, iw'⟩
      · intro x hx
        obtain ⟨w, hw, iw⟩ := q1 x hx
        obtain ⟨x', hx', iw'⟩ := p2 w (e ▸ hw)
        exact ⟨x', w, hx', iw', iw⟩

theorem entries_lastOcc {parse : Bytes → Option Bytes} (hi : ∀ a b x, parse a = some x → parse b = some x → a = b) {t : Ty} {k a : Bytes}
    (hk : parse k = some a) : ∀ {ms : List (Bytes × Json)} {es : List (Bytes × Val)}, DecodedEntries E parse t ms es →
    lastOcc a es = (lastOcc k ms).bind fun x => decode E x t
  | _, _, .nil => by simp [lastOcc]
  | _, _, .cons (k := k0) (k' := a0) (x := x) (v := v) (ms := ms) (kvs := es) h0 hv hs => by
    have ih := entries_lastOcc hi hk hs
    have he : a = a0 ↔ k = k0 := ⟨fun e => hi _ _ _ hk (e ▸ h0), fun e => by subst e; rw [hk] at h0; simpa using h0⟩
    rw [lastOcc_cons, lastOcc_cons, ih]
    cases h1 : lastOcc k ms with
    | none =>
      simp only [Option.bind_none, Option.none_or, he]
      split
      · simp [hv]
      · rfl
    | some y =>
      obtain ⟨w, hw⟩ := decodeEntries_each ((decodeEntries_spec E _ _ _ _).2 hs) _ (mem_of_lastOcc h1)
      simp only at hw
      simp [hw]

theorem entries_key {parse : Bytes → Option Bytes} {t : Ty} {a : Bytes} {v : Val} : ∀ {ms : List (Bytes × Json)} {es : List (Bytes × Val)},
    DecodedEntries E parse t ms es → (a, v) ∈ es → ∃ k x, parse k = some a ∧ (k, x) ∈ ms
  | _, _, .nil, h => nomatch h
  | _, _, .cons hk hv hs, h => by
    rcases List.mem_cons.1 h with e | h
    · cases e; exact ⟨_, _, hk, List.mem_cons_self⟩
    · obtain ⟨k, x, h1, h2⟩ := entries_key hs h
      exact ⟨k, x, h1, List.mem_cons_of_mem _ h2⟩

theorem entries_exist {parse : Bytes → Option Bytes} {t : Ty} : ∀ {ms : List (Bytes × Json)},
    (∀ m ∈ ms, (∃ a, parse m.1 = some a) ∧ ∃ v, decode E m.2 t = some v) → ∃ es, DecodedEntries E parse t ms es
  | [], _ => ⟨_, .nil⟩
  | (k, x) :: ms, h => by
    obtain ⟨⟨a, ha⟩, v, hv⟩ := h _ List.mem_cons_self
    obtain ⟨es, hes⟩ := entries_exist fun m hm => h m (List.mem_cons_of_mem _ hm)
    exact ⟨_, .cons ha hv hes⟩

theorem entries_parse {parse : Bytes → Option Bytes} {t : Ty} : ∀ {ms : List (Bytes × Json)} {es : List (Bytes × Val)},
    DecodedEntries E parse t ms es → ∀ m ∈ ms, ∃ a, parse m.1 = some a
  | _, _, .nil, _, h => nomatch h
  | _, _, .cons hk hv hs, m, h => by
    rcases List.mem_cons.1 h with rfl | h
    · exact ⟨_, hk⟩
    · exact entries_parse hs m h

/-! ## Association lists with equal keys and `Same` values -/

/-- Both absent, or both present with `Same` values. -/
def SameOpt (E : Env) (t : Ty) : Option Val → Option Val → Prop
  | none, none => True
  | some v, some v' => Same E t v v'
  | _, _ => False

theorem sorted_same {lt : Bytes → Bytes → Bool} (hl : StrictLinear lt) {t : Ty} : ∀ {m m' : List (Bytes × Val)}, SortedKeys lt m → SortedKeys lt m' →
    (∀ k, SameOpt E t (m.lookup k) (m'.lookup k)) → SameEntries E t m m'
  | [], [], _, _, _ => .nil _ _
  | [], (a, u) :: m', _, _, h => by have := h a; simp [lookup_cons', SameOpt] at this
  | (a, u) :: m, [], _, _, h => by have := h a; simp [lookup_cons', SameOpt] at this
  | (a, u) :: m, (b, v) :: m', hm, hm', h => by
    have h1 := List.pairwise_cons.1 hm
    have h2 := List.pairwise_cons.1 hm'
    have hab : a = b := by
      by_cases e : a = b
      · exact e
      · have ha := h a
        have hb := h b
        rw [lookup_cons', if_pos rfl, lookup_cons', if_neg e] at ha
        rw [lookup_cons', if_neg (Ne.symm e), lookup_cons', if_pos rfl] at hb
        cases ea : m'.lookup a with
        | none => rw [ea] at ha; exact ha.elim
        | some x =>
          cases eb : m.lookup b with
          | none => rw [eb] at hb; exact hb.elim
          | some y =>
            have l1 := h2.1 _ (mem_of_lookup ea)
            have l2 := h1.1 _ (mem_of_lookup eb)
            have := hl.trans _ _ _ l1 l2
            rw [hl.irrefl] at this; cases this
    subst hab
    have huv : Same E t u v := by
      have := h a
      simpa [lookup_cons', SameOpt] using this
    have key : ∀ {l : List (Bytes × Val)}, (∀ y ∈ l, lt a y.1 = true) → l.lookup a = none := by
      intro l hy
      cases e : l.lookup a with
      | none => rfl
      | some w => have := hy _ (mem_of_lookup e); rw [hl.irrefl] at this; cases this
    refine .cons huv (sorted_same hl h1.2 h2.2 fun k => ?_)
    by_cases e : k = a
    · subst e; rw [key h1.1, key h2.1]; trivial
    · have := h k
      simpa [lookup_cons', e] using this

theorem hash_same {t : Ty} : ∀ {m' m : List (Bytes × Val)}, (m.map Prod.fst).Nodup → (m'.map Prod.fst).Nodup →
    (∀ k, SameOpt E t (m.lookup k) (m'.lookup k)) → ∃ m₁, m.Perm m₁ ∧ SameEntries E t m₁ m'
  | [], [], _, _, _ => ⟨[], .refl _, .nil _ _⟩
  | [], (a, u) :: m, _, _, h => by have := h a; simp [lookup_cons', SameOpt] at this
  | (a, v) :: m', m, hn, hn', h => by
    have ha := h a
    rw [lookup_cons', if_pos rfl] at ha
    cases e : m.lookup a with
    | none => rw [e] at ha; exact ha.elim
    | some u =>
      rw [e] at ha
      have hmem := mem_of_lookup e
      obtain ⟨p, q, rfl⟩ := List.append_of_mem hmem
      have hp : (p ++ (a, u) :: q).Perm ((a, u) :: (p ++ q)) := List.perm_middle
      have hnk : ((a, u) :: (p ++ q) |>.map Prod.fst).Nodup := (hp.map Prod.fst).nodup_iff.1 hn
      rw [List.map_cons, List.nodup_cons] at hnk hn'
      have hlk : ∀ k, k ≠ a → (p ++ (a, u) :: q).lookup k = (p ++ q).lookup k := by
        intro k hk
        rw [lookup_append, lookup_append, lookup_cons', if_neg hk]
      obtain ⟨m₁, h1, h2⟩ := hash_same (m' := m') (m := p ++ q) hnk.2 hn'.2 (by
        intro k
        by_cases hk : k = a
        · subst hk
          have e1 : (p ++ q).lookup k = none := by
            cases e1 : (p ++ q).lookup k with
            | none => rfl
            | some w => exact absurd (List.mem_map.2 ⟨_, mem_of_lookup e1, rfl⟩) hnk.1
          have e2 : m'.lookup k = none := by
            cases e2 : m'.lookup k with
            | none => rfl
            | some w => exact absurd (List.mem_map.2 ⟨_, mem_of_lookup e2, rfl⟩) hn'.1
          rw [e1, e2]; trivial
        · have := h k
          rwa [hlk k hk, lookup_cons', if_neg hk] at this)
      exact ⟨(a, u) :: m₁, hp.trans (h1.cons _), .cons ha h2⟩

/-! ## The main induction -/

theorem isValue_null {j : Json} (h : IsValue j .null) : j = .null := by
  cases h with
  | null => rfl
  | num h hv => cases hv

theorem isValue_isNull {j j' : Json} {u : Val} (h : IsValue j u) (h' : IsValue j' u) : j.isNull = j'.isNull := by
  cases j with
  | null => cases h; rw [isValue_null h']
  | _ =>
    cases j' with
    | null => cases h'; cases isValue_null h
    | _ => rfl

theorem scalar_same {j j' : Json} {u : Val} (h : IsValue j u) (h' : IsValue j' u) (t : Ty) (ha : ∀ xs, j ≠ .arr xs) (ho : ∀ ms, j ≠ .obj ms) :
    decodeScalar E j t = decodeScalar E j' t ∧ (∀ xs, j' ≠ .arr xs) ∧ (∀ ms, j' ≠ .obj ms) := by
  cases h with
  | null => rw [isValue_null h']; exact ⟨rfl, (fun _ h => nomatch h), (fun _ h => nomatch h)⟩
  | bool b =>
    cases h' with
    | bool => exact ⟨rfl, (fun _ h => nomatch h), (fun _ h => nomatch h)⟩
    | num h hv => cases hv
  | str b =>
    cases h' with
    | str => exact ⟨rfl, (fun _ h => nomatch h), (fun _ h => nomatch h)⟩
    | num h hv => cases hv
  | num h1 hv1 =>
    have : ∃ l' ev', j' = .num l' ∧ numEvent l' = .ok ev' ∧ IsNumber ev' u := by
      cases h' with
      | num h hv => exact ⟨_, _, rfl, h, hv⟩
      | _ => cases hv1
    obtain ⟨l', ev', rfl, h2, hv2⟩ := this
    refine ⟨?_, (fun _ h => nomatch h), (fun _ h => nomatch h)⟩
    simp only [decodeScalar, h1, h2]
    cases hv1 <;> cases hv2 <;> rfl
  | arr h => exact absurd rfl (ha _)
  | obj h => exact absurd rfl (ho _)

theorem isValue_arr {xs : List Json} {j' : Json} {u : Val} (h : IsValue (.arr xs) u) (h' : IsValue j' u) :
    ∃ xs' vs, j' = .arr xs' ∧ AreValues xs vs ∧ AreValues xs' vs := by
  cases h with
  | arr h =>
    cases h' with
    | arr h' => exact ⟨_, _, rfl, h, h'⟩
    | num _ hv => cases hv

theorem isValue_obj {ms : List (Bytes × Json)} {j' : Json} {u : Val} (h : IsValue (.obj ms) u) (h' : IsValue j' u) : ∃ ms', j' = .obj ms' := by
  cases h with
  | obj h =>
    cases h' with
    | obj h' => exact ⟨_, rfl⟩
    | num _ hv => cases hv

theorem areValues_length : ∀ {xs : List Json} {vs : List Val}, AreValues xs vs → xs.length = vs.length
  | _, _, .nil => rfl
  | _, _, .cons _ h => by simp [areValues_length h]

/-- What is shown by induction. -/
def Follows (E : Env) (j : Json) (t : Ty) (v : Val) : Prop :=
  ∀ j' u, IsValue j u → IsValue j' u → j'.NoDup → ∃ v', decode E j' t = some v' ∧ Same E t v v'

theorem all_follow {t : Ty} : ∀ {xs xs' : List Json} {us vs : List Val}, (∀ x ∈ xs, ∀ v, decode E x t = some v → Follows E x t v) →
    AreValues xs us → AreValues xs' us → (∀ x ∈ xs', x.NoDup) → decodeAll E xs t = some vs → ∃ vs', decodeAll E xs' t = some vs' ∧ SameAll E t vs vs'
  | _, _, _, vs, _, .nil, .nil, _, e => by
    rw [decodeAll] at e; cases e
    exact ⟨[], by rw [decodeAll], .nil _ _⟩
  | _, _, _, vs, ih, .cons h hs, .cons h' hs', hn, e => by
    rw [decodeAll] at e
    simp only [Option.bind_eq_some_iff, Option.map_eq_some_iff] at e
    obtain ⟨v, h1, ws, h2, rfl⟩ := e
    obtain ⟨v', h3, h4⟩ := ih _ List.mem_cons_self v h1 _ _ h h' (hn _ List.mem_cons_self)
    obtain ⟨ws', h5, h6⟩ := all_follow (fun x hx => ih x (List.mem_cons_of_mem _ hx)) hs hs' (fun x hx => hn x (List.mem_cons_of_mem _ hx)) h2
    exact ⟨v' :: ws', by rw [decodeAll]; simp [h3, h5], .cons h4 h6⟩

theorem entries_follow {parse : Bytes → Option Bytes} (hi : ∀ a b x, parse a = some x → parse b = some x → a = b) {t : Ty}
    {ms ms' : List (Bytes × Json)} {u : Val} (ih : ∀ m ∈ ms, ∀ v, decode E m.2 t = some v → Follows E m.2 t v)
    (h : IsValue (.obj ms) u) (h' : IsValue (.obj ms') u) (hk : (ms'.map Prod.fst).Nodup) (hn : ∀ m ∈ ms', m.2.NoDup) {es : List (Bytes × Val)}
    (hd : DecodedEntries E parse t ms es) : ∃ es', DecodedEntries E parse t ms' es' ∧ ∀ a, SameOpt E t (lastOcc a es) (lastOcc a es') := by
  have each := decodeEntries_each ((decodeEntries_spec E _ _ _ _).2 hd)
  obtain ⟨es', hd'⟩ : ∃ es', DecodedEntries E parse t ms' es' := by
    refine entries_exist fun m hm => ?_
    obtain ⟨x, w, h1, h2, h3⟩ := (same_members h h' m.1).2 _ (lastOcc_of_mem hk (v := m.2) hm)
    have hx := mem_of_lastOcc h1
    obtain ⟨v, hv⟩ := each _ hx
    obtain ⟨v', h4, -⟩ := ih _ hx v hv m.2 w h2 h3 (hn m hm)
    exact ⟨entries_parse hd (m.1, x) hx, v', h4⟩
  refine ⟨es', hd', fun a => ?_⟩
  by_cases hp : ∃ k, parse k = some a
  · obtain ⟨k, hp⟩ := hp
    rw [entries_lastOcc hi hp hd, entries_lastOcc hi hp hd']
    cases h1 : lastOcc k ms with
    | none =>
      cases h2 : lastOcc k ms' with
      | none => trivial
      | some x' =>
        obtain ⟨x, w, h3, -⟩ := (same_members h h' k).2 _ h2
        rw [h1] at h3; cases h3
    | some x =>
      obtain ⟨x', w, h2, h3, h4⟩ := (same_members h h' k).1 _ h1
      rw [h2]
      have hx := mem_of_lastOcc h1
      obtain ⟨v, hv⟩ := each _ hx
      obtain ⟨v', h5, h6⟩ := ih _ hx v hv x' w h3 h4 (hn _ (mem_of_lastOcc h2))
      simp only at hv
      simp only [Option.bind_some, hv, h5, SameOpt]
      exact h6
  · have no : ∀ {ms es}, DecodedEntries E parse t ms es → lastOcc a es = none := by
      intro ms es hd
      cases e : lastOcc a es with
      | none => rfl
      | some v => obtain ⟨k, x, h1, -⟩ := entries_key hd (mem_of_lastOcc e); exact absurd ⟨k, h1⟩ hp
    rw [no hd, no hd']; trivial

theorem sameFields_of_get : ∀ {fs : List (Bytes × Ty)} {vs vs' : List Val}, vs.length = fs.length → vs'.length = fs.length →
    (∀ (j : Nat) n t u u', fs[j]? = some (n, t) → vs[j]? = some u → vs'[j]? = some u' → Same E t u u') → SameFields E fs vs vs'
  | [], [], [], _, _, _ => .nil _
  | (n, t) :: fs, v :: vs, v' :: vs', h1, h2, h =>
    .cons (h 0 n t v v' rfl rfl rfl) (sameFields_of_get (by simpa using h1) (by simpa using h2) fun j n t u u' a b c =>
      h (j + 1) n t u u' (by simpa using a) (by simpa using b) (by simpa using c))
  | [], _ :: _, _, h, _, _ => by simp at h
  | [], _, _ :: _, _, h, _ => by simp at h
  | _ :: _, [], _, h, _, _ => by simp at h
  | _ :: _, _, [], _, h, _ => by simp at h

theorem strct_follow {i : Nat} (hf : ((E.fields i).map Prod.fst).Nodup) {ms ms' : List (Bytes × Json)} {u v : Val}
    (ih : ∀ m ∈ ms, ∀ t v, decode E m.2 t = some v → Follows E m.2 t v)
    (h : IsValue (.obj ms) u) (h' : IsValue (.obj ms') u) (hk : (ms'.map Prod.fst).Nodup) (hn : ∀ m ∈ ms', m.2.NoDup)
    (e : decode E (.obj ms) (.strct i) = some v) : ∃ v', decode E (.obj ms') (.strct i) = some v' ∧ Same E (.strct i) v v' := by
  obtain ⟨vs, rfl, h1, h2, h3⟩ := (decode_strct E hf ms v).1 e
  -- the fields of the second document
  have key : ∀ (j : Nat) n t, (E.fields i)[j]? = some (n, t) → ∃ u u', vs[j]? = some u ∧ FieldHas E ms' n t u' ∧ Same E t u u' := by
    intro j n t hj
    obtain ⟨w, hw, hfh⟩ := h3 j n t hj
    unfold FieldHas at hfh
    cases e1 : lastOcc n ms with
    | none =>
      rw [e1] at hfh
      have e2 : lastOcc n ms' = none := by
        cases e2 : lastOcc n ms' with
        | none => rfl
        | some x' => obtain ⟨x, w, h5, -⟩ := (same_members h h' n).2 _ e2; rw [e1] at h5; cases h5
      exact ⟨w, w, hw, by unfold FieldHas; rw [e2]; exact hfh, .refl _ _ _⟩
    | some x =>
      rw [e1] at hfh
      obtain ⟨x', w', e2, h5, h6⟩ := (same_members h h' n).1 _ e1
      obtain ⟨v', h7, h8⟩ := ih _ (mem_of_lastOcc e1) t w hfh x' w' h5 h6 (hn _ (mem_of_lastOcc e2))
      exact ⟨w, v', hw, by unfold FieldHas; rw [e2]; exact h7, h8⟩
  obtain ⟨vs', hl, hvs⟩ : ∃ vs' : List Val, vs'.length = (E.fields i).length ∧ ∀ (j : Nat) n t, (E.fields i)[j]? = some (n, t) →
      ∃ u u', vs[j]? = some u ∧ vs'[j]? = some u' ∧ FieldHas E ms' n t u' ∧ Same E t u u' := by
    have gen : ∀ (fs : List (Bytes × Ty)) (R : Nat → Bytes → Ty → Val → Prop),
        (∀ (j : Nat) n t, fs[j]? = some (n, t) → ∃ u', R j n t u') → ∃ vs' : List Val, vs'.length = fs.length ∧
        ∀ (j : Nat) n t, fs[j]? = some (n, t) → ∃ u', vs'[j]? = some u' ∧ R j n t u' := by
      intro fs
      induction fs with
      | nil => intro R _; exact ⟨[], rfl, by simp⟩
      | cons f fs ihf =>
        intro R hR
        obtain ⟨n, t⟩ := f
        obtain ⟨u0, hu0⟩ := hR 0 n t rfl
        obtain ⟨vs', hl, hvs⟩ := ihf (fun j => R (j + 1)) fun j n t hj => hR (j + 1) n t (by simpa using hj)
        refine ⟨u0 :: vs', by simp [hl], fun j n' t' hj => ?_⟩
        cases j with
        | zero => simp at hj; obtain ⟨rfl, rfl⟩ := hj; exact ⟨u0, rfl, hu0⟩
        | succ j => simpa using hvs j n' t' (by simpa using hj)
    obtain ⟨vs', hl, hvs⟩ := gen (E.fields i) (fun j n t u' => ∃ u, vs[j]? = some u ∧ FieldHas E ms' n t u' ∧ Same E t u u')
      fun j n t hj => by obtain ⟨u, u', a, b, c⟩ := key j n t hj; exact ⟨u', u, a, b, c⟩
    refine ⟨vs', hl, fun j n t hj => ?_⟩
    obtain ⟨u', a, u, b, c, d⟩ := hvs j n t hj
    exact ⟨u, u', b, a, c, d⟩
  refine ⟨.strct vs', (decode_strct E hf ms' _).2 ⟨vs', rfl, ?_, hl, ?_⟩, .strct (sameFields_of_get h2 hl ?_)⟩
  · intro m hm
    obtain ⟨x, w, h5, h6, h7⟩ := (same_members h h' m.1).2 _ (lastOcc_of_mem hk (v := m.2) hm)
    have hx := mem_of_lastOcc h5
    have hfit := h1 _ hx
    unfold MemberFits at hfit ⊢
    simp only at hfit
    cases hl : (E.fields i).lookup m.1 with
    | none => simp only; exact (value_exists _).1 ⟨w, h7⟩
    | some t =>
      rw [hl] at hfit
      obtain ⟨v, hv⟩ := hfit
      obtain ⟨v', h8, -⟩ := ih _ hx t v hv m.2 w h6 h7 (hn m hm)
      exact ⟨v', h8⟩
  · intro j n t hj
    obtain ⟨u, u', a, b, c, d⟩ := hvs j n t hj
    exact ⟨u', b, c⟩
  · intro j n t u u' a b c
    obtain ⟨w, w', a', b', -, d⟩ := hvs j n t a
    rw [b] at a'; cases a'
    rw [c] at b'; cases b'
    exact d

theorem follows (hE : E.KeysFaithful) (n : Nat) : ∀ j : Json, sizeOf j < n → ∀ t v, decode E j t = some v → Follows E j t v := by
  induction n with
  | zero => intro j hj; omega
  | succ n ih =>
    intro j hj t
    induction t with
    | opt t iht =>
      intro v e j' u h h' hn
      rw [decode] at e
      have hnull := isValue_isNull h h'
      rw [decode]
      split at e
      · rename_i hj0
        cases e
        rw [← hnull, if_pos hj0]
        exact ⟨_, rfl, .refl _ _ _⟩
      · rename_i hj0
        simp only [Option.map_eq_some_iff] at e
        obtain ⟨w, h1, rfl⟩ := e
        obtain ⟨w', h2, h3⟩ := iht w h1 j' u h h' hn
        rw [← hnull, if_neg hj0, h2]
        exact ⟨_, rfl, .some h3⟩
    | box t iht =>
      intro v e j' u h h' hn
      rw [decode] at e
      simp only [Option.map_eq_some_iff] at e
      obtain ⟨w, h1, rfl⟩ := e
      obtain ⟨w', h2, h3⟩ := iht w h1 j' u h h' hn
      exact ⟨.box w', by rw [decode, h2]; rfl, .box h3⟩
    | value =>
      intro v e j' u h h' hn
      have := C03_unique j u v h ((decode_value E j v).1 e)
      subst this
      exact ⟨_, (decode_value E j' _).2 h', .refl _ _ _⟩
    | _ =>
      intro v e j' u h h' hnd
      match j with
      | .arr xs =>
        have hx : ∀ x ∈ xs, ∀ t v, decode E x t = some v → Follows E x t v := by
          intro x hx
          have := List.sizeOf_lt_of_mem hx
          simp at hj
          exact ih x (by omega)
        obtain ⟨xs', us, rfl, a1, a2⟩ := isValue_arr h h'
        have hnd' : ∀ x ∈ xs', x.NoDup := by cases hnd with | arr h => exact h
        have hlen : xs.length = xs'.length := (areValues_length a1).trans (areValues_length a2).symm
        unfold decode at e ⊢
        first
          | (cases e; done)
          | (simp only [Option.map_eq_some_iff] at e
             obtain ⟨vs, h1, rfl⟩ := e
             obtain ⟨vs', h2, h3⟩ := all_follow (fun x h v => hx x h _ v) a1 a2 hnd' h1
             first
               | exact ⟨.seq vs', by simp [h2], .vec h3⟩
               | (have e1 := (decodeAll_value E _ _).1 h1
                  have e2 := (decodeAll_value E _ _).1 h2
                  have e3 := C03_unique (.arr xs) _ _ (.arr a1) (.arr e1)
                  have e4 := C03_unique (.arr xs') _ _ (.arr a2) (.arr e2)
                  rw [e3] at e4
                  exact ⟨.seq vs', by simp [h2], by rw [← e4]; exact .refl _ _ _⟩))
          | (rename_i t' m _
             by_cases hn : xs.length = m
             · simp only [hn, if_true, Option.map_eq_some_iff] at e
               obtain ⟨vs, h1, rfl⟩ := e
               obtain ⟨vs', h2, h3⟩ := all_follow (fun x h v => hx x h _ v) a1 a2 hnd' h1
               exact ⟨.seq vs', by simp [← hlen, hn, h2], .arr h3⟩
             · simp only [hn, if_false] at e
               cases e)
          | (cases a1 with
             | nil => cases e
             | cons b1 c1 =>
               cases a2 with | cons b2 c2 =>
               cases c1 with
               | nil => cases e
               | cons b3 c3 =>
                 cases c2 with | cons b4 c4 =>
                 cases c3 with
                 | cons => cases e
                 | nil =>
                   cases c4
                   simp only [Option.bind_eq_some_iff, Option.map_eq_some_iff] at e
                   obtain ⟨vx, h1, vy, h2, rfl⟩ := e
                   obtain ⟨vx', h3, h4⟩ := hx _ List.mem_cons_self _ _ h1 _ _ b1 b2 (hnd' _ List.mem_cons_self)
                   obtain ⟨vy', h5, h6⟩ := hx _ (List.mem_cons_of_mem _ List.mem_cons_self) _ _ h2 _ _ b3 b4
                     (hnd' _ (List.mem_cons_of_mem _ List.mem_cons_self))
                   exact ⟨.seq [vx', vy'], by simp [h3, h5], .tup h4 h6⟩)
      | .obj ms =>
        have hx : ∀ m ∈ ms, ∀ t v, decode E m.2 t = some v → Follows E m.2 t v := by
          intro m hm
          have := List.sizeOf_lt_of_mem hm
          have h2 : sizeOf m.2 < sizeOf m := by cases m; simp <;> omega
          simp at hj
          exact ih m.2 (by omega)
        obtain ⟨ms', rfl⟩ := isValue_obj h h'
        have hnk : (ms'.map Prod.fst).Nodup := by cases hnd with | obj h _ => exact h
        have hnd' : ∀ m ∈ ms', m.2.NoDup := by cases hnd with | obj _ h => exact h
        first
          | exact strct_follow (hE.fieldNames _) hx h h' hnk hnd' e
          | (unfold decode at e ⊢
             first
               | (cases e; done)
               | (simp only [Option.map_eq_some_iff] at e
                  obtain ⟨kvs, h1, rfl⟩ := e
                  have h3 := (decodeEntries_spec E _ _ _ _).1 h1
                  obtain ⟨es', h4, h5⟩ := entries_follow (hE.inj _) (fun x h v => hx x h _ v) h h' hnk hnd' h3
                  have h6 := (decodeEntries_spec E _ _ _ _).2 h4
                  first
                    | (have f1 := foldl_hash kvs [] List.nodup_nil
                       have f2 := foldl_hash es' [] List.nodup_nil
                       obtain ⟨m₁, hp, hs⟩ := hash_same f1.1 f2.1 (fun k => by
                         rw [f1.2, f2.2]; simpa [lastOcc] using h5 k)
                       exact ⟨_, by simp only [h6, Option.map_some], .hmap hp hs⟩)
                    | (rename_i kk _ _
                       have f1 := foldl_btree (hE.order kk) kvs [] List.Pairwise.nil
                       have f2 := foldl_btree (hE.order kk) es' [] List.Pairwise.nil
                       exact ⟨_, by simp only [h6, Option.map_some], .bmap (sorted_same (hE.order kk) f1.1 f2.1 (fun k => by
                         rw [f1.2, f2.2]; simpa [lastOcc] using h5 k))⟩))
               | (have e' : decode E (.obj ms) .value = some v := by unfold decode; exact e
                  have := C03_unique (.obj ms) u v h ((decode_value E _ v).1 e')
                  subst this
                  have e2 := (decode_value E _ _).2 h'
                  unfold decode at e2
                  exact ⟨_, e2, .refl _ _ _⟩))
      | .null | .bool b | .str s | .num l =>
        obtain ⟨e1, e2, e3⟩ := scalar_same (E := E) h h' _ (by intro _ h; cases h) (by intro _ h; cases h)
        rw [decode_base E rfl (by intro _ h; cases h) (by intro _ h; cases h), e1] at e
        exact ⟨v, by rw [decode_base E rfl e2 e3]; exact e, .refl _ _ _⟩

end Miniserde
