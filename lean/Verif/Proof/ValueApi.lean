import Verif.Spec.ValueApi
import Verif.Proof.Drop
import Verif.Proof.Maps

/-!
# Programs that use `Value`: proofs
-/

namespace Miniserde

/-! ## Lists -/

theorem nodes_eq : ∀ (xs : List LVal), LVal.nodes xs = xs.map LVal.node
  | [] => rfl
  | x :: xs => by rw [LVal.nodes, nodes_eq xs, List.map_cons]

theorem nodeEntries_eq : ∀ (ms : List (Bytes × Nat × LVal)), LVal.nodeEntries ms = ms.map fun m => (m.2.1, m.2.2.node)
  | [] => rfl
  | (k, l, x) :: ms => by rw [LVal.nodeEntries, nodeEntries_eq ms, List.map_cons]

theorem vals_eq : ∀ (xs : List LVal), LVal.vals xs = xs.map LVal.val
  | [] => rfl
  | x :: xs => by rw [LVal.vals, vals_eq xs, List.map_cons]

theorem valEntries_eq : ∀ (ms : List (Bytes × Nat × LVal)), LVal.valEntries ms = ms.map fun m => (m.1, m.2.2.val)
  | [] => rfl
  | (k, l, x) :: ms => by rw [LVal.valEntries, valEntries_eq ms, List.map_cons]

/-! ## Counting labels -/

/-- How often a label occurs in a value. -/
def wt (a : Nat) (v : LVal) : Nat := v.node.owns.count a

def wts (a : Nat) : List LVal → Nat
  | [] => 0
  | x :: xs => wt a x + wts a xs

def wte (a : Nat) : List (Bytes × Nat × LVal) → Nat
  | [] => 0
  | (_, l, x) :: ms => [l].count a + wt a x + wte a ms

theorem count_ownsAll (a : Nat) : ∀ (xs : List LVal), (ownsAll (LVal.nodes xs)).count a = wts a xs
  | [] => rfl
  | x :: xs => by rw [LVal.nodes, ownsAll, List.count_append, count_ownsAll a xs]; rfl

theorem count_ownsEntries (a : Nat) : ∀ (ms : List (Bytes × Nat × LVal)), (ownsEntries (LVal.nodeEntries ms)).count a = wte a ms
  | [] => rfl
  | (k, l, x) :: ms => by
    rw [LVal.nodeEntries, ownsEntries, List.cons_append, List.count_cons, List.count_append, count_ownsEntries a ms]
    simp only [wte, wt, List.count_singleton]; omega

theorem wt_scalar (a i : Nat) (s : Scalar) : wt a (.scalar i s) = [i].count a := by simp only [wt, LVal.node, DNode.owns]

theorem wt_array (a i : Nat) (xs : List LVal) : wt a (.array i xs) = [i].count a + wts a xs := by
  simp only [wt, LVal.node, DNode.owns, List.count_cons, count_ownsAll, List.count_nil]; omega

theorem wt_object (a i : Nat) (ms : List (Bytes × Nat × LVal)) : wt a (.object i ms) = [i].count a + wte a ms := by
  simp only [wt, LVal.node, DNode.owns, List.count_cons, count_ownsEntries, List.count_nil]; omega

theorem wts_append (a : Nat) : ∀ (xs ys : List LVal), wts a (xs ++ ys) = wts a xs + wts a ys
  | [], ys => by simp [wts]
  | x :: xs, ys => by rw [List.cons_append, wts, wts, wts_append a xs ys]; omega

theorem wte_append (a : Nat) : ∀ (xs ys : List (Bytes × Nat × LVal)), wte a (xs ++ ys) = wte a xs + wte a ys
  | [], ys => by simp [wte]
  | (_, _, x) :: xs, ys => by rw [List.cons_append, wte, wte, wte_append a xs ys]; omega

theorem wts_reverse (a : Nat) (xs : List LVal) : wts a xs.reverse = wts a xs := by
  induction xs with
  | nil => rfl
  | cons x xs ih => rw [List.reverse_cons, wts_append, ih]; simp only [wts]; omega

theorem wts_split (a n : Nat) (xs : List LVal) : wts a xs = wts a (xs.take n) + wts a (xs.drop n) := by
  rw [← wts_append, List.take_append_drop]

theorem wte_split (a n : Nat) (xs : List (Bytes × Nat × LVal)) : wte a xs = wte a (xs.take n) + wte a (xs.drop n) := by
  rw [← wte_append, List.take_append_drop]

theorem wts_set (a : Nat) {x : LVal} (y : LVal) : ∀ {xs : List LVal} {i : Nat}, xs[i]? = some x → wts a (xs.set i y) + wt a x = wts a xs + wt a y
  | [], _, h => by simp at h
  | z :: xs, 0, h => by simp at h; subst h; simp only [List.set_cons_zero, wts]; omega
  | z :: xs, i + 1, h => by
    have := wts_set a y (xs := xs) (i := i) (by simpa using h)
    simp only [List.set_cons_succ, wts]; omega

theorem wts_erase (a : Nat) {x : LVal} : ∀ {xs : List LVal} {i : Nat}, xs[i]? = some x → wts a (xs.eraseIdx i) + wt a x = wts a xs
  | [], _, h => by simp at h
  | z :: xs, 0, h => by simp at h; subst h; simp only [List.eraseIdx_cons_zero, wts]; omega
  | z :: xs, i + 1, h => by
    have := wts_erase a (xs := xs) (i := i) (by simpa using h)
    simp only [List.eraseIdx_cons_succ, wts]; omega

theorem wte_set (a : Nat) {k k' : Bytes} {l l' : Nat} {x : LVal} (y : LVal) : ∀ {ms : List (Bytes × Nat × LVal)} {i : Nat}, ms[i]? = some (k, l, x) →
    wte a (ms.set i (k', l', y)) + [l].count a + wt a x = wte a ms + [l'].count a + wt a y
  | [], _, h => by simp at h
  | (_, _, z) :: xs, 0, h => by simp at h; obtain ⟨rfl, rfl, rfl⟩ := h; simp only [List.set_cons_zero, wte]; omega
  | (_, _, z) :: xs, i + 1, h => by
    have := wte_set a (k' := k') (l' := l') y (ms := xs) (i := i) (by simpa using h)
    simp only [List.set_cons_succ, wte]; omega

theorem wts_map_snd (a : Nat) : ∀ (ms : List (Bytes × Nat × LVal)), wts a (ms.map fun m => m.2.2) + (ms.map fun m => m.2.1).count a = wte a ms
  | [] => rfl
  | (_, l, x) :: ms => by
    have := wts_map_snd a ms
    simp only [List.map_cons, wts, wte, List.count_cons, List.count_nil]; omega

/-! ## Entries -/

theorem entryFind_some {α : Type} {k : Bytes} {u : α} : ∀ {ms : List (Bytes × α)} {j : Nat}, entryFind k ms = some (j, u) → ms[j]? = some (k, u) ∧ ms.lookup k = some u
  | [], _, h => by simp [entryFind] at h
  | (k', v) :: ms, j, h => by
    rw [entryFind] at h
    by_cases e : k' = k
    · rw [if_pos e] at h; cases h; subst e; exact ⟨rfl, by rw [lookup_cons', if_pos rfl]⟩
    · rw [if_neg e] at h
      cases h' : entryFind k ms with
      | none => rw [h'] at h; cases h
      | some r =>
        rw [h'] at h; cases h
        obtain ⟨h1, h2⟩ := entryFind_some (ms := ms) (j := r.1) (u := r.2) h'
        exact ⟨by simpa using h1, by rw [lookup_cons', if_neg (Ne.symm e)]; exact h2⟩

theorem entryFind_none {α : Type} {k : Bytes} : ∀ {ms : List (Bytes × α)}, entryFind k ms = none → (∀ m ∈ ms, m.1 ≠ k) ∧ ms.lookup k = none
  | [], _ => ⟨by simp, rfl⟩
  | (k', v) :: ms, h => by
    rw [entryFind] at h
    by_cases e : k' = k
    · rw [if_pos e] at h; cases h
    · rw [if_neg e] at h
      cases h' : entryFind k ms with
      | some r => rw [h'] at h; cases h
      | none =>
        obtain ⟨h1, h2⟩ := entryFind_none h'
        refine ⟨?_, by rw [lookup_cons', if_neg (Ne.symm e)]; exact h2⟩
        intro m hm
        rcases List.mem_cons.1 hm with rfl | hm
        · exact e
        · exact h1 m hm

theorem filter_all {α : Type} {p : α → Bool} {l : List α} (h : ∀ x ∈ l, p x = true) : l.filter p = l := List.filter_eq_self.2 h

theorem filter_none {α : Type} {p : α → Bool} {l : List α} (h : ∀ x ∈ l, p x = false) : l.filter p = [] :=
  List.filter_eq_nil_iff.2 fun x hx => by simp [h x hx]

theorem strLt_asymm {a b : Bytes} (h : strLt a b = true) : strLt b a = false := by
  cases h' : strLt b a with
  | false => rfl
  | true =>
    have := strLt_linear.trans _ _ _ h h'
    rw [strLt_linear.irrefl] at this; cases this

theorem insert_withKey {α : Type} (k : Bytes) (v : α) : ∀ {ms : List (Bytes × α)}, SortedKeys strLt ms → btreeInsert bytesLt k v ms = withKey k v ms
  | [], _ => rfl
  | (k', u) :: ms, h => by
    have h' := List.pairwise_cons.1 h
    rw [bytesLt_eq_strLt, btreeInsert, withKey]
    by_cases h1 : strLt k k' = true
    · rw [if_pos h1]
      have hgt : ∀ m ∈ (k', u) :: ms, strLt k m.1 = true := by
        intro m hm
        rcases List.mem_cons.1 hm with rfl | hm
        · exact h1
        · exact strLt_linear.trans _ _ _ h1 (h'.1 m hm)
      rw [filter_none (fun m hm => strLt_asymm (hgt m hm)), filter_all hgt]; rfl
    · rw [if_neg h1]
      by_cases h2 : strLt k' k = true
      · rw [if_pos h2, ← bytesLt_eq_strLt, insert_withKey k v h'.2, bytesLt_eq_strLt, withKey, List.filter_cons_of_pos (by simpa using h2), List.filter_cons_of_neg (by simpa using h1)]; rfl
      · rw [if_neg h2]
        have e : k = k' := strLt_linear.total k k' (by simpa using h1) (by simpa using h2)
        subst e
        rw [List.filter_cons_of_neg (by simpa using h1), List.filter_cons_of_neg (by simpa using h1), filter_none (fun m hm => strLt_asymm (h'.1 m hm)), filter_all (fun m hm => h'.1 m hm)]; rfl

theorem set_withKey {α : Type} {k : Bytes} (v : α) {u : α} {ms : List (Bytes × α)} {j : Nat} (hs : SortedKeys strLt ms) (h : ms[j]? = some (k, u)) :
    ms.set j (k, v) = withKey k v ms := by
  rw [← insert_withKey k v hs, bytesLt_eq_strLt]
  induction ms generalizing j with
  | nil => simp at h
  | cons m ms ih =>
    obtain ⟨k', u'⟩ := m
    have h' := List.pairwise_cons.1 hs
    cases j with
    | zero =>
      simp at h
      obtain ⟨rfl, rfl⟩ := h
      rw [List.set_cons_zero, btreeInsert, if_neg (by rw [strLt_linear.irrefl]; simp), if_neg (by rw [strLt_linear.irrefl]; simp)]
    | succ j =>
      have hj : ms[j]? = some (k, u) := by simpa using h
      have hlt : strLt k' k = true := h'.1 _ (List.mem_of_getElem? hj)
      rw [List.set_cons_succ, btreeInsert, if_neg (by rw [strLt_asymm hlt]; simp), if_pos hlt, ih h'.2 hj]

theorem withKey_map {α β : Type} (f : α → β) (k : Bytes) (v : α) (ms : List (Bytes × α)) :
    (withKey k v ms).map (fun m => (m.1, f m.2)) = withKey k (f v) (ms.map fun m => (m.1, f m.2)) := by
  simp only [withKey, List.map_append, List.map_cons, List.filter_map]
  rfl

theorem withKey_sorted {α : Type} (k : Bytes) (v : α) {ms : List (Bytes × α)} (h : SortedKeys strLt ms) : SortedKeys strLt (withKey k v ms) := by
  rw [← insert_withKey k v h, bytesLt_eq_strLt]
  exact btreeInsert_sorted strLt_linear k v ms h

theorem withKey_mem {α : Type} {k : Bytes} {v : α} {ms : List (Bytes × α)} {m : Bytes × α} (h : m ∈ withKey k v ms) : m = (k, v) ∨ m ∈ ms := by
  simp only [withKey, List.mem_append, List.mem_cons, List.mem_filter] at h
  rcases h with h | h | h
  · exact .inr h.1
  · exact .inl h
  · exact .inr h.1

theorem sorted_map {α β : Type} (f : α → β) {ms : List (Bytes × α)} : SortedKeys strLt (ms.map fun m => (m.1, f m.2)) ↔ SortedKeys strLt ms := by
  simp only [SortedKeys, List.pairwise_map]

theorem lookup_map {α β : Type} (f : α → β) (k : Bytes) : ∀ (ms : List (Bytes × α)), (ms.map fun m => (m.1, f m.2)).lookup k = (ms.lookup k).map f
  | [] => rfl
  | (k', v) :: ms => by
    rw [List.map_cons, lookup_cons', lookup_cons', lookup_map f k ms]
    split <;> rfl

theorem wte_insert (a : Nat) {k : Bytes} {l : Nat} {x : LVal} : ∀ {ms : List (Bytes × Nat × LVal)}, (∀ m ∈ ms, m.1 ≠ k) →
    wte a (btreeInsert bytesLt k (l, x) ms) = wte a ms + [l].count a + wt a x
  | [], _ => by simp only [btreeInsert, wte]; omega
  | (k', l', y) :: ms, h => by
    have ih := wte_insert a (l := l) (x := x) fun m hm => h m (List.mem_cons_of_mem _ hm)
    rw [btreeInsert]
    by_cases h1 : bytesLt k k' = true
    · rw [if_pos h1]; simp only [wte]; omega
    · rw [if_neg h1]
      by_cases h2 : bytesLt k' k = true
      · rw [if_pos h2]; simp only [wte]; omega
      · refine absurd ?_ (h _ List.mem_cons_self)
        rw [bytesLt_eq_strLt] at h1 h2
        exact (strLt_linear.total k k' (by simpa using h1) (by simpa using h2)).symm

theorem entryRemove_some {k : Bytes} {l : Nat} {x : LVal} : ∀ {ms ms' : List (Bytes × Nat × LVal)}, entryRemove k ms = some ((l, x), ms') →
    (∀ a, wte a ms = wte a ms' + [l].count a + wt a x) ∧ ms.lookup k = some (l, x) ∧ (SortedKeys strLt ms → ms' = withoutKey k ms) ∧
      (k, l, x) ∈ ms ∧ ∀ m ∈ ms', m ∈ ms
  | [], _, h => by simp [entryRemove] at h
  | (k', l', y) :: ms, ms', h => by
    rw [entryRemove] at h
    by_cases e : k' = k
    · rw [if_pos e] at h; cases h
      subst e
      refine ⟨fun a => by simp only [wte]; omega, by rw [lookup_cons', if_pos rfl], fun hs => ?_, List.mem_cons_self, fun m hm => List.mem_cons_of_mem _ hm⟩
      have hs' := List.pairwise_cons.1 hs
      rw [withoutKey, List.filter_cons_of_neg (by simp), filter_all]
      intro m hm
      simp only [bne_iff_ne, ne_eq]
      intro e
      have := hs'.1 m hm
      rw [e, strLt_linear.irrefl] at this
      cases this
    · rw [if_neg e] at h
      cases h' : entryRemove k ms with
      | none => rw [h'] at h; cases h
      | some r =>
        obtain ⟨⟨l₁, x₁⟩, ms₁⟩ := r
        rw [h'] at h; cases h
        obtain ⟨h1, h2, h3, h4, h5⟩ := entryRemove_some h'
        refine ⟨fun a => by have := h1 a; simp only [wte]; omega, by rw [lookup_cons', if_neg (Ne.symm e)]; exact h2, fun hs => ?_, List.mem_cons_of_mem _ h4, fun m hm => ?_⟩
        · rw [h3 (List.pairwise_cons.1 hs).2, withoutKey, withoutKey, List.filter_cons_of_pos (by simpa using e)]
        · rcases List.mem_cons.1 hm with rfl | hm
          · exact List.mem_cons_self
          · exact List.mem_cons_of_mem _ (h5 m hm)

theorem entryRemove_none {α : Type} {k : Bytes} : ∀ {ms : List (Bytes × α)}, entryRemove k ms = none → ms.lookup k = none ∧ withoutKey k ms = ms
  | [], _ => ⟨rfl, rfl⟩
  | (k', v) :: ms, h => by
    rw [entryRemove] at h
    by_cases e : k' = k
    · rw [if_pos e] at h; cases h
    · rw [if_neg e] at h
      cases h' : entryRemove k ms with
      | some r => rw [h'] at h; cases h
      | none =>
        obtain ⟨h1, h2⟩ := entryRemove_none h'
        exact ⟨by rw [lookup_cons', if_neg (Ne.symm e)]; exact h1, by rw [withoutKey, List.filter_cons_of_pos (by simpa using e)]; exact congrArg _ h2⟩

theorem withoutKey_map {α β : Type} (f : α → β) (k : Bytes) (ms : List (Bytes × α)) :
    (withoutKey k ms).map (fun m => (m.1, f m.2)) = withoutKey k (ms.map fun m => (m.1, f m.2)) := by
  simp only [withoutKey, List.filter_map]
  rfl

/-! ## Well-formed values -/

inductive LVal.OK : LVal → Prop
  | scalar (i : Nat) {s : Scalar} (h : s.WF) : LVal.OK (.scalar i s)
  | array (i : Nat) {xs : List LVal} (h : ∀ x ∈ xs, LVal.OK x) : LVal.OK (.array i xs)
  | object (i : Nat) {ms : List (Bytes × Nat × LVal)} (hk : ∀ m ∈ ms, ValidUtf8 m.1) (hs : SortedKeys strLt ms) (h : ∀ m ∈ ms, LVal.OK m.2.2) : LVal.OK (.object i ms)

theorem LVal.OK.hasTy {E : Env} : ∀ {v : LVal}, v.OK → HasTy E .value v.val
  | _, .scalar i (s := s) h => by
    rw [LVal.val]
    cases s with
    | null => exact .vNull
    | bool b => exact .vBool b
    | numU n => exact .numU (.inr rfl) h
    | numI z => exact .numI (.inr rfl) h
    | numF x => exact .numF (.inr rfl) h
    | str s => exact .vStr h
  | _, .array i h => by
    rw [LVal.val, vals_eq]
    refine .array (.inr rfl) fun v hv => ?_
    obtain ⟨x, hx, rfl⟩ := List.mem_map.1 hv
    exact (h x hx).hasTy
  | _, .object i hk hs h => by
    rw [LVal.val, valEntries_eq]
    refine .object (.inr rfl) (fun m hm => ?_) ?_ fun m hm => ?_
    · obtain ⟨x, hx, rfl⟩ := List.mem_map.1 hm
      exact hk x hx
    · exact (sorted_map (fun m : Nat × LVal => m.2.val)).2 hs
    · obtain ⟨x, hx, rfl⟩ := List.mem_map.1 hm
      exact (h x hx).hasTy

/-! ## Clones and new values -/

mutual

theorem clone_ok : ∀ {v : LVal} (n : Nat), v.OK → (v.clone n).2.OK ∧ (v.clone n).2.val = v.val ∧
    ∀ a, wt a (v.clone n).2 + (List.range n).count a = (List.range (v.clone n).1).count a
  | .scalar i s, n, h => by
    cases h with
    | scalar _ h =>
      refine ⟨.scalar n h, by simp only [LVal.clone, LVal.val], fun a => ?_⟩
      simp only [LVal.clone, wt_scalar, List.range_succ, List.count_append]; omega
  | .array i xs, n, h => by
    cases h with
    | array _ h =>
      obtain ⟨h1, h2, h3⟩ := clones_ok (xs := xs) (n + 1) h
      refine ⟨by rw [LVal.clone]; exact .array n h1, by simp only [LVal.clone, LVal.val, h2], fun a => ?_⟩
      have := h3 a
      simp only [LVal.clone, wt_array]
      rw [← this, List.range_succ, List.count_append]; omega
  | .object i ms, n, h => by
    cases h with
    | object _ hk hs h =>
      obtain ⟨h1, h2, h3, h4⟩ := cloneEntries_ok (ms := ms) (n + 1) h
      refine ⟨?_, by simp only [LVal.clone, LVal.val, h2], fun a => ?_⟩
      · rw [LVal.clone]
        have e : (LVal.cloneEntries (n + 1) ms).2.map Prod.fst = ms.map Prod.fst := h4
        refine .object n (fun m hm => ?_) ?_ h1
        · have : m.1 ∈ ms.map Prod.fst := by rw [← e]; exact List.mem_map_of_mem hm
          obtain ⟨x, hx, e⟩ := List.mem_map.1 this
          rw [← e]; exact hk x hx
        · have h5 : ((LVal.cloneEntries (n + 1) ms).2.map Prod.fst).Pairwise (fun x y => strLt x y = true) := by rw [e, List.pairwise_map]; exact hs
          rw [List.pairwise_map] at h5; exact h5
      · have := h3 a
        simp only [LVal.clone, wt_object]
        rw [← this, List.range_succ, List.count_append]; omega

theorem clones_ok : ∀ {xs : List LVal} (n : Nat), (∀ x ∈ xs, x.OK) → (∀ x ∈ (LVal.clones n xs).2, x.OK) ∧ LVal.vals (LVal.clones n xs).2 = LVal.vals xs ∧
    ∀ a, wts a (LVal.clones n xs).2 + (List.range n).count a = (List.range (LVal.clones n xs).1).count a
  | [], n, _ => ⟨by simp [LVal.clones], by simp [LVal.clones], fun a => by simp [LVal.clones, wts]⟩
  | x :: xs, n, h => by
    obtain ⟨h1, h2, h3⟩ := clone_ok (v := x) n (h x List.mem_cons_self)
    obtain ⟨h4, h5, h6⟩ := clones_ok (xs := xs) (x.clone n).1 fun y hy => h y (List.mem_cons_of_mem _ hy)
    refine ⟨?_, by simp only [LVal.clones, LVal.vals, h2, h5], fun a => ?_⟩
    · intro y hy
      simp only [LVal.clones, List.mem_cons] at hy
      rcases hy with rfl | hy
      · exact h1
      · exact h4 y hy
    · have := h3 a
      have := h6 a
      simp only [LVal.clones, wts]; omega

theorem cloneEntries_ok : ∀ {ms : List (Bytes × Nat × LVal)} (n : Nat), (∀ m ∈ ms, m.2.2.OK) → (∀ m ∈ (LVal.cloneEntries n ms).2, m.2.2.OK) ∧
    LVal.valEntries (LVal.cloneEntries n ms).2 = LVal.valEntries ms ∧
    (∀ a, wte a (LVal.cloneEntries n ms).2 + (List.range n).count a = (List.range (LVal.cloneEntries n ms).1).count a) ∧
    (LVal.cloneEntries n ms).2.map Prod.fst = ms.map Prod.fst
  | [], n, _ => ⟨by simp [LVal.cloneEntries], by simp [LVal.cloneEntries], fun a => by simp [LVal.cloneEntries, wte], by simp [LVal.cloneEntries]⟩
  | (k, l, x) :: ms, n, h => by
    obtain ⟨h1, h2, h3⟩ := clone_ok (v := x) (n + 1) (h _ List.mem_cons_self)
    obtain ⟨h4, h5, h6, h7⟩ := cloneEntries_ok (ms := ms) (x.clone (n + 1)).1 fun y hy => h y (List.mem_cons_of_mem _ hy)
    refine ⟨?_, by simp only [LVal.cloneEntries, LVal.valEntries, h2, h5], fun a => ?_, by simp only [LVal.cloneEntries, List.map_cons, h7]⟩
    · intro y hy
      simp only [LVal.cloneEntries, List.mem_cons] at hy
      rcases hy with rfl | hy
      · exact h1
      · exact h4 y hy
    · have := h3 a
      have := h6 a
      rw [List.range_succ, List.count_append] at *
      simp only [LVal.cloneEntries, wte]; omega

end

mutual

theorem fresh_ok {E : Env} : ∀ {v : Val} (n : Nat), HasTy E .value v → (LVal.fresh n v).2.OK ∧ (LVal.fresh n v).2.val = v ∧
    ∀ a, wt a (LVal.fresh n v).2 + (List.range n).count a = (List.range (LVal.fresh n v).1).count a
  | .null, n, h => by
    refine ⟨by rw [LVal.fresh]; exact .scalar n trivial, by simp only [LVal.fresh, LVal.val, Scalar.val], fun a => ?_⟩
    simp only [LVal.fresh, wt_scalar, List.range_succ, List.count_append]; omega
  | .bool b, n, h => by
    refine ⟨by rw [LVal.fresh]; exact .scalar n trivial, by simp only [LVal.fresh, LVal.val, Scalar.val], fun a => ?_⟩
    simp only [LVal.fresh, wt_scalar, List.range_succ, List.count_append]; omega
  | .numU k, n, h => by
    cases h with
    | numU _ h =>
      refine ⟨by rw [LVal.fresh]; exact .scalar n h, by simp only [LVal.fresh, LVal.val, Scalar.val], fun a => ?_⟩
      simp only [LVal.fresh, wt_scalar, List.range_succ, List.count_append]; omega
  | .numI z, n, h => by
    cases h with
    | numI _ h =>
      refine ⟨by rw [LVal.fresh]; exact .scalar n h, by simp only [LVal.fresh, LVal.val, Scalar.val], fun a => ?_⟩
      simp only [LVal.fresh, wt_scalar, List.range_succ, List.count_append]; omega
  | .numF x, n, h => by
    cases h with
    | numF _ h =>
      refine ⟨by rw [LVal.fresh]; exact .scalar n h, by simp only [LVal.fresh, LVal.val, Scalar.val], fun a => ?_⟩
      simp only [LVal.fresh, wt_scalar, List.range_succ, List.count_append]; omega
  | .str s, n, h => by
    cases h with
    | vStr h =>
      refine ⟨by rw [LVal.fresh]; exact .scalar n h, by simp only [LVal.fresh, LVal.val, Scalar.val], fun a => ?_⟩
      simp only [LVal.fresh, wt_scalar, List.range_succ, List.count_append]; omega
  | .seq vs, n, h => by
    cases h with
    | array _ h =>
      obtain ⟨h1, h2, h3⟩ := freshAll_ok (vs := vs) (n + 1) h
      refine ⟨by rw [LVal.fresh]; exact .array n h1, by simp only [LVal.fresh, LVal.val, h2], fun a => ?_⟩
      have := h3 a
      simp only [LVal.fresh, wt_array]
      rw [← this, List.range_succ, List.count_append]; omega
  | .map ms, n, h => by
    cases h with
    | object _ hk hs h =>
      obtain ⟨h1, h2, h3, e⟩ := freshEntries_ok (ms := ms) (n + 1) h
      refine ⟨?_, by simp only [LVal.fresh, LVal.val, h2], fun a => ?_⟩
      · rw [LVal.fresh]
        refine .object n (fun m hm => ?_) ?_ h1
        · have : m.1 ∈ ms.map Prod.fst := by rw [← e]; exact List.mem_map_of_mem hm
          obtain ⟨x, hx, e⟩ := List.mem_map.1 this
          rw [← e]; exact hk x hx
        · have h5 : ((LVal.freshEntries (n + 1) ms).2.map Prod.fst).Pairwise (fun x y => strLt x y = true) := by rw [e, List.pairwise_map]; exact hs
          rw [List.pairwise_map] at h5; exact h5
      · have := h3 a
        simp only [LVal.fresh, wt_object]
        rw [← this, List.range_succ, List.count_append]; omega
  | .int _, _, h => by cases h
  | .f32 _, _, h => by cases h
  | .f64 _, _, h => by cases h
  | .box _, _, h => by cases h
  | .optNone, _, h => by cases h
  | .optSome _, _, h => by cases h
  | .strct _, _, h => by cases h
  | .enm _, _, h => by cases h

theorem freshAll_ok {E : Env} : ∀ {vs : List Val} (n : Nat), (∀ v ∈ vs, HasTy E .value v) → (∀ x ∈ (LVal.freshAll n vs).2, x.OK) ∧
    LVal.vals (LVal.freshAll n vs).2 = vs ∧
    ∀ a, wts a (LVal.freshAll n vs).2 + (List.range n).count a = (List.range (LVal.freshAll n vs).1).count a
  | [], n, _ => ⟨by simp [LVal.freshAll], by simp [LVal.freshAll, LVal.vals], fun a => by simp [LVal.freshAll, wts]⟩
  | v :: vs, n, h => by
    obtain ⟨h1, h2, h3⟩ := fresh_ok (v := v) n (h v List.mem_cons_self)
    obtain ⟨h4, h5, h6⟩ := freshAll_ok (vs := vs) (LVal.fresh n v).1 fun y hy => h y (List.mem_cons_of_mem _ hy)
    refine ⟨?_, by simp only [LVal.freshAll, LVal.vals, h2, h5], fun a => ?_⟩
    · intro y hy
      simp only [LVal.freshAll, List.mem_cons] at hy
      rcases hy with rfl | hy
      · exact h1
      · exact h4 y hy
    · have := h3 a
      have := h6 a
      simp only [LVal.freshAll, wts]; omega

theorem freshEntries_ok {E : Env} : ∀ {ms : List (Bytes × Val)} (n : Nat), (∀ m ∈ ms, HasTy E .value m.2) → (∀ m ∈ (LVal.freshEntries n ms).2, m.2.2.OK) ∧
    LVal.valEntries (LVal.freshEntries n ms).2 = ms ∧
    (∀ a, wte a (LVal.freshEntries n ms).2 + (List.range n).count a = (List.range (LVal.freshEntries n ms).1).count a) ∧
    (LVal.freshEntries n ms).2.map Prod.fst = ms.map Prod.fst
  | [], n, _ => ⟨by simp [LVal.freshEntries], by simp [LVal.freshEntries, LVal.valEntries], fun a => by simp [LVal.freshEntries, wte], by simp [LVal.freshEntries]⟩
  | (k, v) :: ms, n, h => by
    obtain ⟨h1, h2, h3⟩ := fresh_ok (v := v) (n + 1) (h _ List.mem_cons_self)
    obtain ⟨h4, h5, h6, h7⟩ := freshEntries_ok (ms := ms) (LVal.fresh (n + 1) v).1 fun y hy => h y (List.mem_cons_of_mem _ hy)
    refine ⟨?_, by simp only [LVal.freshEntries, LVal.valEntries, h2, h5], fun a => ?_, by simp only [LVal.freshEntries, List.map_cons, h7]⟩
    · intro y hy
      simp only [LVal.freshEntries, List.mem_cons] at hy
      rcases hy with rfl | hy
      · exact h1
      · exact h4 y hy
    · have := h3 a
      have := h6 a
      rw [List.range_succ, List.count_append] at *
      simp only [LVal.freshEntries, wte]; omega

end

end Miniserde
